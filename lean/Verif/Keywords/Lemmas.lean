import Verif.Keywords.Model

/-! # Lemmas for the round trip of the statement parser -/

namespace Verif.Keywords
open Verif Verif.Str Verif.Lexer Spec

variable {L : Lang} {t : Word → Word → Bool}

theorem atWord_iff {k : Word} {ts : List Tok} : atWord t k ts = true ↔ begins t k ts := by
  unfold atWord begins
  split <;> simp

theorem atWord_false {k : Word} {ts : List Tok} (h : ¬ begins t k ts) : atWord t k ts = false := by
  simpa [← atWord_iff] using h

theorem at_append {k : Tok} {a b : List Tok} (h : a ≠ []) : at? k (a ++ b) = at? k a := by
  cases a with
  | nil => exact absurd rfl h
  | cons x a => rfl

theorem begins_append {k : Word} {a b : List Tok} (h : a ≠ []) :
    begins t k (a ++ b) ↔ begins t k a := by
  cases a with
  | nil => exact absurd rfl h
  | cons x a => cases x <;> rfl

theorem eat_append {k : Tok} {a b : List Tok} (h : a ≠ []) (hk : at? k a = false) :
    eat k (a ++ b) = a ++ b := by
  cases a with
  | nil => exact absurd rfl h
  | cons x a =>
      simp only [at?, beq_eq_false_iff_ne] at hk
      simp [eat, hk]

/-- the first token behind a word is not the brace of a macro call -/
theorem noMacro (hL : Laws L) (e : L.E) (r : List Tok) :
    (at? .bang (L.prE e ++ r) && at? .lb ((L.prE e ++ r).drop 1)) = false := by
  cases h : L.prE e with
  | nil => exact absurd h (hL.exprNe e)
  | cons x q =>
      by_cases hx : x = .bang
      · subst hx
        obtain ⟨y, q', rfl, hy⟩ := hL.exprBang e q h
        simp [at?, hy]
      · simp [at?, hx]

theorem stmt_head {f : Nat} {w : Word} {h : Head} {r : List Tok} (hw : headOf w heads = some h)
    (hm : (at? .bang r && at? .lb (r.drop 1)) = false) :
    stmt L t (f + 1) (.word w :: r) = headStmt L t f h r := by
  rw [stmt, Bool.and_assoc, hm, Bool.and_false]
  simp only [hw, Bool.false_eq_true, if_false]

theorem stmt_plain {f : Nat} {a r : List Tok} {e : L.E} (h : plainStart a)
    (hx : L.expr (a ++ .semi :: r) = some (e, .semi :: r)) :
    stmt L t (f + 1) (a ++ .semi :: r) = some (.expr e, r) := by
  cases a with
  | nil => exact absurd h (by simp [plainStart])
  | cons x a =>
      cases x
      case word w =>
        obtain ⟨h1, h2, h3⟩ := h
        have hb : at? .bang (a ++ .semi :: r) = false := by
          cases a with
          | nil => rfl
          | cons y a => exact h2
        have hc : at? .colon (a ++ .semi :: r) = false := by
          cases a with
          | nil => rfl
          | cons y a => exact h3
        rw [List.cons_append] at hx ⊢
        rw [stmt]
        simp only [hb, hc, h1, hx, eat, Bool.and_false, Bool.false_and, Bool.false_eq_true, if_false, if_true]
      all_goals first
        | (simp [plainStart] at h; done)
        | (rw [List.cons_append] at hx ⊢; rw [stmt] <;> simp [hx, eat])

theorem parseReturn_some {e : L.E} (hL : Laws L) (h : notAt .semi (L.prE e)) (r : List Tok) :
    parseReturn L (L.prE e ++ .semi :: r) = some (some e, r) := by
  have h' : at? .semi (L.prE e ++ .semi :: r) = false := by rw [at_append (hL.exprNe e)]; exact h
  simp [parseReturn, h', hL.expr e (.semi :: r) trivial, eat]

theorem parseReturn_none (r : List Tok) : parseReturn L (.semi :: r) = some (none, r) := by
  simp [parseReturn, at?, eat]

theorem parseAssert_ok {c : L.E} (hL : Laws L) (r : List Tok) :
    parseAssert L (.lp :: (L.prE c ++ .rp :: .semi :: r)) = some (c, r) := by
  simp [parseAssert, eat, hL.expr c (.rp :: .semi :: r) trivial, at?]

theorem parseCond_ok {c : Option L.E} (hL : Laws L)
    (h : match c with | none => True | some e => notAt .semi (L.prE e)) (r : List Tok) :
    parseCond L (optText c ++ .semi :: r) = some (c, r) := by
  cases c with
  | none => simp [parseCond, optText, at?, eat]
  | some e =>
      have h' : at? .semi (L.prE e ++ .semi :: r) = false := by rw [at_append (hL.exprNe e)]; exact h
      simp [parseCond, optText, h', hL.expr e (.semi :: r) trivial, eat]

theorem text_body_stops {b : Body L} (h : behindExpr b) (r : List Tok) : stops L (bodyText b ++ r) := by
  cases b with
  | braces ss => simp [bodyText, stops]
  | one s =>
      obtain ⟨w, q, hs, hw⟩ := h
      simp [bodyText, hs, stops, hw]

theorem behind_notAt {b : Body L} (h : behindExpr b) {k : Tok} (r : List Tok) (hk : k ≠ .lb)
    (hw : ∀ w, k ≠ .word w) : at? k (bodyText b ++ r) = false := by
  cases b with
  | braces ss => simp [bodyText, at?, hk.symm]
  | one s =>
      obtain ⟨w, q, hs, _⟩ := h
      simp [bodyText, hs, at?, (hw w).symm]

theorem parseCStep_ok {s : Option L.E} {b : Body L} (hL : Laws L)
    (h : match s with
      | none => b.isBraces = true
      | some e => notAt .rp (L.prE e) ∧ notAt .lb (L.prE e) ∧ behindExpr b) (r : List Tok) :
    parseCStep L (optText s ++ (bodyText b ++ r)) = some (s, bodyText b ++ r) := by
  cases s with
  | none =>
      cases b with
      | one s => simp [Body.isBraces] at h
      | braces ss => simp [parseCStep, optText, bodyText, at?, eat]
  | some e =>
      obtain ⟨h1, h2, h3⟩ := h
      have h1' : at? .rp (L.prE e ++ (bodyText b ++ r)) = false := by
        rw [at_append (hL.exprNe e)]; exact h1
      have h2' : at? .lb (L.prE e ++ (bodyText b ++ r)) = false := by
        rw [at_append (hL.exprNe e)]; exact h2
      have h3' : eat .rp (bodyText b ++ r) = bodyText b ++ r := by
        have := behind_notAt (k := .rp) h3 r (by simp) (by simp)
        revert this
        cases bodyText b ++ r with
        | nil => simp [eat]
        | cons x q => simp +contextual [eat, at?]
      simp [parseCStep, optText, h1', h2', hL.expr e _ (text_body_stops h3 r), h3']

theorem parseGuardOpt_ok {g : Option L.E} (hL : Laws L) (ht : t kIf kIf = true) (r : List Tok) :
    parseGuardOpt L t (guardText g ++ .arrow :: r) = some (g, .arrow :: r) := by
  cases g with
  | none => simp [parseGuardOpt, guardText, atWord]
  | some e =>
      have : isIdent kIf = true := by decide
      simp [parseGuardOpt, guardText, atWord, this, ht, hL.expr e (.arrow :: r) trivial]

theorem parseStepOpt_ok {st : Option Step} {b : Body L} (ht : t kStep kStep = true)
    (h : match st with
       | none => behindExpr b ∧ ¬ begins t kStep (bodyText b)
       | some ⟨true, _⟩ => True
       | some ⟨false, x⟩ => x ≠ .minus) (hb : bodyText b ≠ []) (r : List Tok) :
    parseStepOpt t (stepText (L := L) st ++ (bodyText b ++ r)) = some (st, bodyText b ++ r) := by
  have hid : isIdent kStep = true := by decide
  cases st with
  | none =>
      have := atWord_false (k := kStep) (ts := bodyText b ++ r) (t := t)
        (by rw [begins_append hb]; exact h.2)
      simp [parseStepOpt, stepText, this]
  | some s =>
      obtain ⟨n, x⟩ := s
      cases n
      · cases x <;>
          first
          | exact absurd rfl h
          | simp [parseStepOpt, stepText, atWord, hid, ht, parseStep]
      · simp [parseStepOpt, stepText, atWord, hid, ht, parseStep]

mutual
/-- recursion depth that suffices -/
def size : Stmt L → Nat
  | .blk ss | .loop ss | .unless _ ss | .doWhile ss _ => 8 + sizes ss
  | .ifs _ b e => 8 + bsize b + esize e
  | .whl _ b | .guard _ b | .forRange _ _ _ _ _ b | .forEach _ _ b | .forC _ _ _ b
  | .forLet _ _ _ b => 8 + bsize b
  | .mtch _ cs => 8 + csize cs
  | _ => 8
def sizes : Stmts L → Nat
  | .nil => 1
  | .cons s ss => 1 + size s + sizes ss
def bsize : Body L → Nat
  | .braces ss => 1 + sizes ss
  | .one s => 1 + size s
def esize : Els L → Nat
  | .none => 1
  | .elif _ b e => 1 + bsize b + esize e
  | .els b => 1 + bsize b
def csize : Cases L → Nat
  | .nil => 1
  | .cons _ _ b cs => 1 + cbsize b + csize cs
def cbsize : CBody L → Nat
  | .braces ss => 1 + sizes ss
  | _ => 1
end

theorem text_ne (_hL : Laws L) (s : Stmt L) : text s ≠ [] := by
  cases s
  case ret e =>
    cases e
    · rw [text]; simp
    · rw [text]; simp
  all_goals (rw [text]; simp)

theorem bodyText_ne (hL : Laws L) (b : Body L) : bodyText b ≠ [] := by
  cases b with
  | braces ss => simp [bodyText]
  | one s => exact text_ne hL s

/-- the first token of a well-formed statement does not close a block and is no colon -/
theorem text_first (hL : Laws L) {s : Stmt L} (h : WF t s) :
    at? .rb (text s) = false ∧ at? .colon (text s) = false := by
  cases s
  case expr e =>
    rw [text, at_append (hL.exprNe e), at_append (hL.exprNe e)]
    rw [WF] at h
    revert h
    cases L.prE e with
    | nil => simp [plainStart]
    | cons x q => cases x <;> simp [plainStart, at?]
  case ret e => cases e <;> simp [text, at?]
  all_goals simp [text, at?]

/-- what may follow a statement -/
def Follow (t : Word → Word → Bool) (o : Bool) (r : List Tok) : Prop :=
  (o = true → ¬ begins t kElse r) ∧ at? .colon r = false

theorem follow_cons {o : Bool} {x : Tok} {r : List Tok} (hw : ∀ w, x ≠ .word w) (hc : x ≠ .colon) :
    Follow t o (x :: r) := by
  refine ⟨fun _ h => ?_, ?_⟩
  · cases x <;> simp_all [begins]
  · cases x <;> simp_all [at?]

theorem texts_follow (hL : Laws L) {o : Bool} {ss : Stmts L} {r : List Tok} (h : WFs t ss)
    (he : o = true → ¬ begins t kElse (texts ss)) : Follow t o (texts ss ++ .rb :: r) := by
  cases ss with
  | nil => exact follow_cons (by simp) (by simp)
  | cons s ss =>
      rw [WFs] at h
      have hne : texts (.cons s ss) ≠ [] := by simp [texts, text_ne hL s]
      refine ⟨fun ho => ?_, ?_⟩
      · rw [begins_append hne]; exact he ho
      · rw [at_append hne, texts, at_append (text_ne hL s)]; exact (text_first hL h.1).2

/-- the keywords pass their own test, and `return` is not taken for `assert` -/
structure Own (t : Word → Word → Bool) : Prop where
  els : t kElse kElse = true
  iff : t kIf kIf = true
  inn : t kIn kIn = true
  step : t kStep kStep = true
  lett : t kLet kLet = true
  asrtRet : t kAssert kReturn = false
  ret : t kReturn kReturn = true

theorem cStart_ok {f : Nat} {e : L.E} (hL : Laws L) {r : List Tok}
    (h : notAt .semi (L.prE e) ∧ notAt .lp (L.prE e) ∧ ¬ begins t kLet (L.prE e) ∧
           ¬ begins t kVar (L.prE e) ∧ ¬ begins t kIn ((L.prE e).drop 1)) :
    forStmt L t (f + 2) (L.prE e ++ .semi :: r) =
      match forRest L t f r with
      | some ((c, s, b), r) => some (.forC (some e) c s b, r)
      | none => none := by
  obtain ⟨h1, h2, h3, h4, h5⟩ := h
  have key : forStmt L t (f + 2) (L.prE e ++ .semi :: r) = cFor L t (f + 1) (L.prE e ++ .semi :: r) := by
    revert h5
    cases L.prE e with
    | nil => simp [forStmt]
    | cons x q =>
        intro h5
        cases x
        case word w =>
          rw [List.cons_append, forStmt]
          have : atWord t kIn (q ++ .semi :: r) = false := by
            apply atWord_false
            cases q with
            | nil => simp [begins]
            | cons y q => rw [begins_append (by simp)]; exact h5
          simp [this]
        all_goals (rw [List.cons_append, forStmt]; simp)
  rw [key, cFor]
  have a1 : at? .semi (L.prE e ++ .semi :: r) = false := by rw [at_append (hL.exprNe e)]; exact h1
  have a3 := atWord_false (t := t) (k := kLet) (ts := L.prE e ++ .semi :: r)
    (by rw [begins_append (hL.exprNe e)]; exact h3)
  have a4 := atWord_false (t := t) (k := kVar) (ts := L.prE e ++ .semi :: r)
    (by rw [begins_append (hL.exprNe e)]; exact h4)
  have a5 : eat .semi (.semi :: r) = r := rfl
  simp only [eat_append (hL.exprNe e) h2, a1, a3, a4, hL.expr e (.semi :: r) trivial, a5,
    Bool.false_eq_true, if_false]
  cases forRest L t f r <;> rfl

mutual
theorem stmt_ok (hL : Laws L) (ht : Own t) : (s : Stmt L) → ∀ {f : Nat}, size s ≤ f → WF t s →
    ∀ {r : List Tok}, Follow t (openEnd s) r → stmt L t f (text s ++ r) = some (s, r)
  | .nop, f, hf, _, r, _ => by
      obtain ⟨g, rfl⟩ : ∃ g, f = g + 1 := ⟨f - 1, by simp [size] at hf; omega⟩
      simp [text, stmt]
  | .expr e, f, hf, hw, r, _ => by
      obtain ⟨g, rfl⟩ : ∃ g, f = g + 1 := ⟨f - 1, by simp [size] at hf; omega⟩
      rw [text, List.append_assoc]
      exact stmt_plain hw (hL.expr e (.semi :: r) trivial)
  | .letS d, f, hf, _, r, _ => by
      obtain ⟨g, rfl⟩ : ∃ g, f = g + 2 := ⟨f - 2, by simp [size] at hf; omega⟩
      obtain ⟨x, q, hq, hx⟩ := hL.declBang d
      rw [text, List.cons_append, stmt_head (h := .letH) (by decide) (by simp [hq, at?, hx]), headStmt]
      simp [hL.decl d r]
  | .ret none, f, hf, _, r, _ => by
      obtain ⟨g, rfl⟩ : ∃ g, f = g + 2 := ⟨f - 2, by simp [size] at hf; omega⟩
      show stmt L t _ (.word kReturn :: .semi :: r) = _
      rw [stmt_head (h := .ret) (by decide) (by simp [at?]), headStmt]
      simp [parseReturn_none]
  | .ret (some e), f, hf, hw, r, _ => by
      obtain ⟨g, rfl⟩ : ∃ g, f = g + 2 := ⟨f - 2, by simp [size] at hf; omega⟩
      rw [text, List.cons_append, List.append_assoc,
        stmt_head (h := .ret) (by decide) (noMacro hL e _), headStmt]
      rw [WF] at hw
      simp [parseReturn_some hL hw r]
  | .brk, f, hf, _, r, _ => by
      obtain ⟨g, rfl⟩ : ∃ g, f = g + 2 := ⟨f - 2, by simp [size] at hf; omega⟩
      show stmt L t _ (.word kBreak :: .semi :: r) = _
      rw [stmt_head (h := .brk) (by decide) (by simp [at?]), headStmt]
      simp [eat]
  | .cont, f, hf, _, r, _ => by
      obtain ⟨g, rfl⟩ : ∃ g, f = g + 2 := ⟨f - 2, by simp [size] at hf; omega⟩
      show stmt L t _ (.word kContinue :: .semi :: r) = _
      rw [stmt_head (h := .cont) (by decide) (by simp [at?]), headStmt]
      simp [eat]
  | .asrt c, f, hf, _, r, _ => by
      obtain ⟨g, rfl⟩ : ∃ g, f = g + 2 := ⟨f - 2, by simp [size] at hf; omega⟩
      rw [text, List.cons_append, List.cons_append, List.append_assoc,
        stmt_head (h := .asrt) (by decide) (by simp [at?]), headStmt]
      simp [parseAssert_ok hL (c := c) r]
  | .blk ss, f, hf, hw, r, _ => by
      obtain ⟨g, rfl⟩ : ∃ g, f = g + 1 := ⟨f - 1, by simp [size] at hf; omega⟩
      have := stmts_ok hL ht ss (f := g) (by simp [size] at hf; omega) hw (r := r)
      rw [text, List.cons_append, List.append_assoc, List.singleton_append, stmt]
      simp [this]
  | .ifs c b e, f, hf, hw, r, hr => by
      obtain ⟨g, rfl⟩ : ∃ g, f = g + 2 := ⟨f - 2, by simp [size] at hf; omega⟩
      obtain ⟨h1, h2, h3, h4⟩ := hw
      have := if_ok hL ht c b e (f := g) (by simp [size] at hf; omega) h1 h2 h3 h4 (r := r) hr
      rw [text, List.cons_append, List.append_assoc, List.append_assoc,
        stmt_head (h := .ifH) (by decide) (noMacro hL c _), headStmt]
      simp [this]
  | .whl c b, f, hf, hw, r, hr => by
      obtain ⟨g, rfl⟩ : ∃ g, f = g + 2 := ⟨f - 2, by simp [size] at hf; omega⟩
      have := body_ok hL ht b (f := g) (by simp [size] at hf; omega) hw.1 (r := r) hr
      rw [text, List.cons_append, List.append_assoc,
        stmt_head (h := .whl) (by decide) (noMacro hL c _), headStmt]
      simp [hL.expr c _ (text_body_stops hw.2 r), this]
  | .loop ss, f, hf, hw, r, _ => by
      obtain ⟨g, rfl⟩ : ∃ g, f = g + 2 := ⟨f - 2, by simp [size] at hf; omega⟩
      have := stmts_ok hL ht ss (f := g) (by simp [size] at hf; omega) hw (r := r)
      rw [text, List.cons_append, List.cons_append, List.append_assoc, List.singleton_append,
        stmt_head (h := .loop) (by decide) (by simp [at?]), headStmt]
      simp [this]
  | .unless c ss, f, hf, hw, r, _ => by
      obtain ⟨g, rfl⟩ : ∃ g, f = g + 2 := ⟨f - 2, by simp [size] at hf; omega⟩
      have := stmts_ok hL ht ss (f := g) (by simp [size] at hf; omega) hw (r := r)
      rw [text, List.cons_append, List.append_assoc, List.cons_append, List.append_assoc,
        List.singleton_append, stmt_head (h := .unless) (by decide) (noMacro hL c _), headStmt]
      simp [hL.expr c (.lb :: _) trivial, this]
  | .guard c b, f, hf, hw, r, hr => by
      obtain ⟨g, rfl⟩ : ∃ g, f = g + 2 := ⟨f - 2, by simp [size] at hf; omega⟩
      have := body_ok hL ht b (f := g) (by simp [size] at hf; omega) hw (r := r) hr
      have hid : isIdent kElse = true := by decide
      rw [text, List.cons_append, List.append_assoc, List.cons_append,
        stmt_head (h := .guard) (by decide) (noMacro hL c _), headStmt]
      simp [hL.expr c (.word kElse :: _) hL.stopElse, this, atWord, hid, ht.els]
  | .forRange x a incl b st bd, f, hf, hw, r, hr => by
      obtain ⟨g, rfl⟩ : ∃ g, f = g + 3 := ⟨f - 3, by simp [size] at hf; omega⟩
      obtain ⟨h1, h2, h3⟩ := hw
      have := body_ok hL ht bd (f := g) (by simp [size] at hf; omega) h2 (r := r) hr
      have hid : isIdent kIn = true := by decide
      have hst := parseStepOpt_ok (t := t) ht.step h3 (bodyText_ne hL bd) r
      have hstop : stops L (stepText (L := L) st ++ (bodyText bd ++ r)) := by
        cases st with
        | none => exact text_body_stops h3.1 r
        | some s => obtain ⟨n, x⟩ := s; cases n <;> exact hL.stopStep
      show stmt L t _ (.word kFor :: .word x :: .word kIn :: ((L.prE a ++
        (if incl then Tok.dotdotEq else .dotdot) :: (L.prE b ++ (stepText st ++ bodyText bd))) ++ r)) = _
      rw [stmt_head (h := .forH) (by decide) (by simp [at?]), headStmt, forStmt]
      simp only [List.append_assoc, List.cons_append]
      have ha : L.expr (L.prE a ++ (if incl then Tok.dotdotEq else .dotdot) ::
          (L.prE b ++ (stepText (L := L) st ++ (bodyText bd ++ r)))) = some (a, _) :=
        hL.expr a _ (by cases incl <;> trivial)
      cases incl
      · simp only [Bool.false_eq_true, if_false] at ha ⊢
        simp [h1, atWord, hid, ht.inn, ha, at?, hL.expr b _ hstop, hst, this]
      · simp only [if_true] at ha ⊢
        simp [h1, atWord, hid, ht.inn, ha, at?, hL.expr b _ hstop, hst, this]
  | .forEach x e bd, f, hf, hw, r, hr => by
      obtain ⟨g, rfl⟩ : ∃ g, f = g + 3 := ⟨f - 3, by simp [size] at hf; omega⟩
      obtain ⟨h1, h2, h3⟩ := hw
      have := body_ok hL ht bd (f := g) (by simp [size] at hf; omega) h2 (r := r) hr
      have hid : isIdent kIn = true := by decide
      show stmt L t _ (.word kFor :: .word x :: .word kIn :: ((L.prE e ++ bodyText bd) ++ r)) = _
      rw [stmt_head (h := .forH) (by decide) (by simp [at?]), headStmt, forStmt]
      simp only [List.append_assoc]
      simp [h1, atWord, hid, ht.inn, hL.expr e _ (text_body_stops h3 r), this,
        behind_notAt h3 (k := .dotdot) r, behind_notAt h3 (k := .dotdotLt) r,
        behind_notAt h3 (k := .dotdotEq) r]
  | .forC i c s bd, f, hf, hw, r, hr => by
      obtain ⟨g, rfl⟩ : ∃ g, f = g + 5 := ⟨f - 5, by simp [size] at hf; omega⟩
      obtain ⟨h1, h2, h3, h4⟩ := hw
      have hb := body_ok hL ht bd (f := g) (by simp [size] at hf; omega) h4 (r := r) hr
      have hrest : forRest L t (g + 1) (optText c ++ .semi :: (optText s ++ (bodyText bd ++ r))) =
          some ((c, s, bd), r) := by
        rw [forRest]
        simp [parseCond_ok hL h2, parseCStep_ok hL h3, hb]
      rw [text, List.cons_append]
      simp only [List.append_assoc, List.cons_append]
      cases i with
      | none =>
          have o : optText (L := L) none = [] := rfl
          rw [o, List.nil_append]
          rw [stmt_head (h := .forH) (by decide) (by simp [at?]), headStmt, forStmt, cFor]
          · simp [eat, at?, hrest]
          · simp
      | some e =>
          have o : optText (some e) = L.prE e := rfl
          rw [o]
          rw [stmt_head (h := .forH) (by decide) (noMacro hL e _), headStmt, cStart_ok hL h1, hrest]
  | .forLet d c s bd, f, hf, hw, r, hr => by
      obtain ⟨g, rfl⟩ : ∃ g, f = g + 5 := ⟨f - 5, by simp [size] at hf; omega⟩
      obtain ⟨h1, h2, h3, h4⟩ := hw
      have hb := body_ok hL ht bd (f := g) (by simp [size] at hf; omega) h4 (r := r) hr
      have hrest : forRest L t (g + 1) (optText c ++ .semi :: (optText s ++ (bodyText bd ++ r))) =
          some ((c, s, bd), r) := by
        rw [forRest]
        simp [parseCond_ok hL h2, parseCStep_ok hL h3, hb]
      have hid : isIdent kLet = true := by decide
      obtain ⟨x, q, hq, _⟩ := hL.declBang d
      have hin := atWord_false (t := t) (k := kIn)
        (ts := L.prD d ++ (optText c ++ .semi :: (optText s ++ (bodyText bd ++ r))))
        (by rw [begins_append (by simp [hq])]; exact h1)
      rw [text, List.cons_append, List.cons_append]
      simp only [List.append_assoc, List.cons_append]
      rw [stmt_head (h := .forH) (by decide) (by simp [at?]), headStmt, forStmt]
      simp only [hin, Bool.and_false, Bool.false_eq_true, if_false]
      rw [cFor]
      simp [eat, at?, atWord, hid, ht.lett, hL.decl, hrest]
  | .mtch e cs, f, hf, hw, r, _ => by
      obtain ⟨g, rfl⟩ : ∃ g, f = g + 2 := ⟨f - 2, by simp [size] at hf; omega⟩
      have := (cases_ok hL ht cs (f := g) (by simp [size] at hf; omega) hw (r := r)).1
      rw [text, List.cons_append, List.append_assoc, List.cons_append, List.append_assoc,
        List.singleton_append, stmt_head (h := .mtch) (by decide) (noMacro hL e _), headStmt]
      simp [hL.expr e (.lb :: _) trivial, this, at?]
  | .doWhile ss c, f, hf, hw, r, _ => by
      obtain ⟨g, rfl⟩ : ∃ g, f = g + 2 := ⟨f - 2, by simp [size] at hf; omega⟩
      have := stmts_ok hL ht ss (f := g) (by simp [size] at hf; omega) hw
        (r := .word kWhile :: (L.prE c ++ .semi :: r))
      have hid : isIdent kWhile = true := by decide
      rw [text, List.cons_append, List.cons_append, List.append_assoc, List.cons_append,
        List.cons_append, List.append_assoc, List.singleton_append,
        stmt_head (h := .doH) (by decide) (by simp [at?]), headStmt]
      simp [this, atWord, hid, whole, hL.expr c (.semi :: r) trivial, eat]
  | .label w, f, hf, hw, r, hr => by
      obtain ⟨g, rfl⟩ : ∃ g, f = g + 1 := ⟨f - 1, by simp [size] at hf; omega⟩
      show stmt L t _ (.word w :: .colon :: r) = _
      rw [stmt]
      have h2 : at? .colon r = false := hr.2
      have h3 : at? .colon (.colon :: r) = true := rfl
      have h4 : at? .bang (.colon :: r) = false := rfl
      simp [hw.1, hw.2, h2, h3, h4]
termination_by s => size s
decreasing_by all_goals (simp_wf; simp [size]; try omega)
theorem stmts_ok (hL : Laws L) (ht : Own t) : (ss : Stmts L) → ∀ {f : Nat}, sizes ss ≤ f → WFs t ss →
    ∀ {r : List Tok}, block L t f (texts ss ++ .rb :: r) = some (ss, r)
  | .nil, f, hf, _, r => by
      obtain ⟨g, rfl⟩ : ∃ g, f = g + 1 := ⟨f - 1, by simp [sizes] at hf; omega⟩
      simp [texts, block]
  | .cons s ss, f, hf, hw, r => by
      obtain ⟨g, rfl⟩ : ∃ g, f = g + 1 := ⟨f - 1, by simp [sizes] at hf; omega⟩
      obtain ⟨h1, h2, h3⟩ := hw
      have a := stmt_ok hL ht s (f := g) (by simp [sizes] at hf; omega) h1
        (r := texts ss ++ .rb :: r) (texts_follow hL h2 h3)
      have b := stmts_ok hL ht ss (f := g) (by simp [sizes] at hf; omega) h2 (r := r)
      rw [texts, List.append_assoc, block]
      · simp [a, b]
      · intro h; exact absurd h (by simp [text_ne hL s])
      · intro q h
        have := (text_first hL h1).1
        rw [← at_append (text_ne hL s), h] at this
        simp [at?] at this
termination_by ss => sizes ss
decreasing_by all_goals (simp_wf; simp [sizes]; try omega)
theorem body_ok (hL : Laws L) (ht : Own t) : (b : Body L) → ∀ {f : Nat}, bsize b ≤ f → WFb t b →
    ∀ {r : List Tok}, Follow t (bodyOpen b) r → body L t f (bodyText b ++ r) = some (b, r)
  | .braces ss, f, hf, hw, r, _ => by
      obtain ⟨g, rfl⟩ : ∃ g, f = g + 1 := ⟨f - 1, by simp [bsize] at hf; omega⟩
      have := stmts_ok hL ht ss (f := g) (by simp [bsize] at hf; omega) hw (r := r)
      rw [bodyText, List.cons_append, List.append_assoc, List.singleton_append, body]
      simp [this]
  | .one s, f, hf, hw, r, hr => by
      obtain ⟨g, rfl⟩ : ∃ g, f = g + 1 := ⟨f - 1, by simp [bsize] at hf; omega⟩
      have := stmt_ok hL ht s (f := g) (by simp [bsize] at hf; omega) hw.1 (r := r) hr
      rw [bodyText, body]
      · simp [this]
      · intro q h
        have h2 : at? .lb (text s) = false := hw.2
        rw [← at_append (text_ne hL s), h] at h2
        simp [at?] at h2
termination_by b => bsize b
decreasing_by all_goals (simp_wf; simp [bsize])
theorem if_ok (hL : Laws L) (ht : Own t) : (c : L.E) → (b : Body L) → (e : Els L) → ∀ {f : Nat},
    1 + bsize b + esize e ≤ f → WFb t b → behindExpr b → WFe t e →
    (e.isNone = false → bodyOpen b = false) →
    ∀ {r : List Tok}, Follow t (elsOpen e) r →
      parseIf L t f (L.prE c ++ (bodyText b ++ (elsText e ++ r))) = some ((c, b, e), r)
  | c, b, .none, f, hf, h1, h2, _, _, r, hr => by
      obtain ⟨g, rfl⟩ : ∃ g, f = g + 1 := ⟨f - 1, by omega⟩
      have hb := body_ok hL ht b (f := g) (by omega) h1 (r := r) ⟨fun _ => hr.1 rfl, hr.2⟩
      rw [parseIf, elsText, List.nil_append]
      simp [hL.expr c _ (text_body_stops h2 r), hb, atWord_false (hr.1 rfl)]
  | c, b, .elif c' b' e, f, hf, h1, h2, h3, h4, r, hr => by
      obtain ⟨g, rfl⟩ : ∃ g, f = g + 1 := ⟨f - 1, by omega⟩
      obtain ⟨k1, k2, k3, k4⟩ := h3
      have ho := h4 rfl
      have hb := body_ok hL ht b (f := g) (by omega) h1
        (r := elsText (.elif c' b' e) ++ r) ⟨by simp [ho], by simp [elsText, at?]⟩
      have he := if_ok hL ht c' b' e (f := g) (by simp [esize] at hf; omega) k1 k2 k3 k4 (r := r) hr
      have i1 : isIdent kElse = true := by decide
      have i2 : isIdent kIf = true := by decide
      rw [parseIf]
      simp only [hL.expr c _ (text_body_stops h2 _), hb]
      simp [elsText, atWord, i1, i2, ht.els, ht.iff, he]
  | c, b, .els b', f, hf, h1, h2, h3, h4, r, hr => by
      obtain ⟨g, rfl⟩ : ∃ g, f = g + 1 := ⟨f - 1, by omega⟩
      have ho := h4 rfl
      have hb := body_ok hL ht b (f := g) (by omega) h1
        (r := elsText (.els b') ++ r) ⟨by simp [ho], by simp [elsText, at?]⟩
      have he := body_ok hL ht b' (f := g) (by simp [esize] at hf; omega) h3.1 (r := r) hr
      have i1 : isIdent kElse = true := by decide
      have hi := atWord_false (t := t) (k := kIf) (ts := bodyText b' ++ r)
        (by rw [begins_append (bodyText_ne hL b')]; exact h3.2)
      rw [parseIf]
      simp only [hL.expr c _ (text_body_stops h2 _), hb]
      simp only [elsText, List.cons_append]
      have e1 : atWord t kElse (.word kElse :: (bodyText b' ++ r)) = true := by
        simp [atWord, i1, ht.els]
      simp [e1, hi, he]
termination_by _ b e => 1 + bsize b + esize e
decreasing_by all_goals (simp_wf; try simp [esize]; try omega)
theorem cases_ok (hL : Laws L) (ht : Own t) : (cs : Cases L) → ∀ {f : Nat}, csize cs ≤ f → WFc t cs →
    ∀ {r : List Tok}, cases L t f (casesText cs ++ .rb :: r) = some (cs, r) ∧
      cases L t f (.comma :: (casesText cs ++ .rb :: r)) = some (cs, r)
  | .nil, f, hf, _, r => by
      obtain ⟨g, rfl⟩ : ∃ g, f = g + 1 := ⟨f - 1, by simp [csize] at hf; omega⟩
      constructor <;> simp [casesText, Verif.Keywords.cases, at?, eat]
  | .cons p g b cs, f, hf, hw, r => by
      obtain ⟨f, rfl⟩ : ∃ g, f = g + 1 := ⟨f - 1, by simp [csize] at hf; omega⟩
      have hb := cbody_ok hL ht b (f := f) (by simp [csize] at hf; omega) hw.1
        (r := casesText cs ++ .rb :: r)
      have hc := (cases_ok hL ht cs (f := f) (by simp [csize] at hf; omega) hw.2 (r := r)).2
      obtain ⟨x, q, hq, hx1, hx2⟩ := hL.patHead p
      have hp : ∀ r', L.pat (L.prP p ++ (guardText g ++ .arrow :: r')) =
          some (p, guardText g ++ .arrow :: r') := by
        intro r'
        apply hL.pat
        cases g with
        | none => exact ⟨r', .inl rfl⟩
        | some e => exact ⟨L.prE e ++ .arrow :: r', .inr rfl⟩
      have e1 : casesText (.cons p g b cs) ++ .rb :: r = L.prP p ++ (guardText g ++ .arrow ::
          (cbodyText b ++ .comma :: (casesText cs ++ .rb :: r))) := by
        simp [casesText]
      have a1 : at? .rb (casesText (.cons p g b cs) ++ .rb :: r) = false := by
        rw [e1, hq]; simp [at?, hx1]
      have a2 : eat .comma (casesText (.cons p g b cs) ++ .rb :: r) =
          casesText (.cons p g b cs) ++ .rb :: r := by
        rw [e1, hq]; simp [eat, hx2]
      constructor
      · rw [Verif.Keywords.cases, a2, a1]
        simp only [Bool.false_eq_true, if_false]
        rw [e1, hp]
        simp [parseGuardOpt_ok hL ht.iff, at?, hb, hc]
      · have a3 : eat .comma (.comma :: (casesText (.cons p g b cs) ++ .rb :: r)) =
          casesText (.cons p g b cs) ++ .rb :: r := by simp [eat]
        rw [Verif.Keywords.cases, a3, a1]
        have a4 : at? .rb (.comma :: (casesText (.cons p g b cs) ++ .rb :: r)) = false := by simp [at?]
        rw [a4]
        simp only [Bool.false_eq_true, if_false]
        rw [e1, hp]
        simp [parseGuardOpt_ok hL ht.iff, at?, hb, hc]
termination_by cs => csize cs
decreasing_by all_goals (simp_wf; simp [csize]; try omega)
theorem cbody_ok (hL : Laws L) (ht : Own t) : (b : CBody L) → ∀ {f : Nat}, cbsize b ≤ f → WFcb t b →
    ∀ {r : List Tok}, cbody L t f (cbodyText b ++ .comma :: r) = some (b, .comma :: r)
  | .braces ss, f, hf, hw, r => by
      obtain ⟨g, rfl⟩ : ∃ g, f = g + 1 := ⟨f - 1, by simp [cbsize] at hf; omega⟩
      have := stmts_ok hL ht ss (f := g) (by simp [cbsize] at hf; omega) hw (r := .comma :: r)
      rw [cbodyText, List.cons_append, List.append_assoc, List.singleton_append, cbody]
      simp [at?, this]
  | .asrt c, f, hf, _, r => by
      obtain ⟨g, rfl⟩ : ∃ g, f = g + 1 := ⟨f - 1, by simp [cbsize] at hf; omega⟩
      rw [cbodyText, List.cons_append, List.cons_append, List.append_assoc, cbody]
      simp [at?, parseAssert_ok hL]
  | .ret none, f, hf, _, r => by
      obtain ⟨g, rfl⟩ : ∃ g, f = g + 1 := ⟨f - 1, by simp [cbsize] at hf; omega⟩
      have i1 : isIdent kReturn = true := by decide
      have i2 : kReturn ≠ kAssert := by decide
      show cbody L t _ (.word kReturn :: .semi :: .comma :: r) = _
      rw [cbody]
      simp [at?, atWord, i1, i2, ht.ret, ht.asrtRet, parseReturn_none]
  | .ret (some e), f, hf, hw, r => by
      obtain ⟨g, rfl⟩ : ∃ g, f = g + 1 := ⟨f - 1, by simp [cbsize] at hf; omega⟩
      have i1 : isIdent kReturn = true := by decide
      rw [WFcb] at hw
      rw [cbodyText, List.cons_append, List.append_assoc, cbody]
      have i2 : kReturn ≠ kAssert := by decide
      simp [at?, atWord, i1, i2, ht.ret, ht.asrtRet, parseReturn_some hL hw]
  | .expr e, f, hf, hw, r => by
      obtain ⟨g, rfl⟩ : ∃ g, f = g + 1 := ⟨f - 1, by simp [cbsize] at hf; omega⟩
      obtain ⟨h1, h2, h3, h4⟩ := hw
      have a1 : at? .lb (L.prE e ++ .comma :: r) = false := by rw [at_append (hL.exprNe e)]; exact h1
      have a2 : at? (.word kAssert) (L.prE e ++ .comma :: r) = false := by
        rw [at_append (hL.exprNe e)]; exact h2
      have a3 := atWord_false (t := t) (k := kAssert) (ts := L.prE e ++ .comma :: r)
        (by rw [begins_append (hL.exprNe e)]; exact h3)
      have a4 := atWord_false (t := t) (k := kReturn) (ts := L.prE e ++ .comma :: r)
        (by rw [begins_append (hL.exprNe e)]; exact h4)
      rw [cbodyText, cbody]
      simp [a1, a2, a3, a4, hL.expr e (.comma :: r) trivial]
termination_by b => cbsize b
decreasing_by all_goals (simp_wf; simp [cbsize])
end

end Verif.Keywords
