import Verif.ConstFold.Lemmas

/-!
# C23, C51: compile-time folding agrees with evaluation
-/

namespace Verif.ConstFold

open Spec

/-- The symbol table and the enum registry tell the truth: whatever the folder may look up
for a name is the value that name has. -/
structure Agree (sc : Scopes) (en : List (String × Int)) (ρ : String → Option Int) : Prop where
  const : ∀ x n v, findSym sc x = some ⟨n, true, v⟩ → ρ x = some v ∧ InR v
  enum : ∀ x v, (∀ n v, findSym sc x ≠ some ⟨n, true, v⟩) → findEnum en x = some v →
    ρ x = some v ∧ InR v

theorem fold_var {sc : Scopes} {en : List (String × Int)} {x : String} :
    (∃ n v, findSym sc x = some ⟨n, true, v⟩ ∧ fold sc en (.var x) = .ok (some v)) ∨
    ((∀ n v, findSym sc x ≠ some ⟨n, true, v⟩) ∧
      fold sc en (.var x) = .ok (findEnum en x)) := by
  rw [fold]
  split
  · exact Or.inl ⟨_, _, by assumption, rfl⟩
  · rename_i h; exact Or.inr ⟨fun n v hf => h n v hf, rfl⟩

/-- C23.  Whenever the folder reduces an expression to a number, that number is the
mathematical value of the expression (so also the value of every C evaluation that does not
overflow), and it is representable.  Literals of 2^63 and above are excluded (see
`fold_literal_violated`); that folding itself is free of undefined behaviour is not claimed
(see `fold_overflow_violated`). -/
theorem fold_sound_partial (sc : Scopes) (en : List (String × Int)) (ρ : String → Option Int)
    (hag : Agree sc en ρ) (e : Ex) (hs : Small e) (v : Int)
    (h : fold sc en e = .ok (some v)) : Value ρ e v ∧ InR v := by
  induction e generalizing v with
  | lit n =>
    rw [fold, toLL_of_lt hs] at h
    simp only [Res.ok.injEq, Option.some.injEq] at h
    subst h
    exact ⟨.lit n, by simp only [Small] at hs; unfold InR half; omega⟩
  | var x =>
    rcases fold_var (sc := sc) (en := en) (x := x) with ⟨n, w, h1, h2⟩ | ⟨h1, h2⟩
    · rw [h2] at h
      simp only [Res.ok.injEq, Option.some.injEq] at h
      subst h
      exact ⟨.var (hag.const _ _ _ h1).1, (hag.const _ _ _ h1).2⟩
    · rw [h2] at h
      simp only [Res.ok.injEq] at h
      exact ⟨.var (hag.enum _ _ h1 h).1, (hag.enum _ _ h1 h).2⟩
  | bin op a b iha ihb =>
    rw [fold] at h
    obtain ⟨l, h1, h2⟩ := andThen_some h
    obtain ⟨r, h3, h4⟩ := andThen_some h2
    have ⟨va, ra⟩ := iha hs.1 _ h1
    have ⟨vb, rb⟩ := ihb hs.2 _ h3
    have ⟨vv, rv⟩ := binop_some ra rb h4
    exact ⟨.bin va vb vv, rv⟩
  | un op a iha =>
    rw [fold] at h
    obtain ⟨l, h1, h2⟩ := andThen_some h
    have ⟨va, ra⟩ := iha hs _ h1
    have ⟨vv, rv⟩ := unop_some ra h2
    exact ⟨.un va vv, rv⟩
  | other => simp [fold] at h

/-- C23, second half.  An expression with a division or remainder by something worth zero,
anywhere inside, is never reduced. -/
theorem fold_div_zero (sc : Scopes) (en : List (String × Int)) (ρ : String → Option Int)
    (hag : Agree sc en ρ) (op : String) (hop : op = "/" ∨ op = "%") (a b : Ex)
    (hs : Small (.bin op a b)) (h0 : Value ρ b 0) (v : Int) :
    fold sc en (.bin op a b) ≠ .ok (some v) := by
  intro h
  have ⟨hv, _⟩ := fold_sound_partial sc en ρ hag _ hs v h
  cases hv with
  | bin _ hb hz =>
    have := Value.det hb h0
    subst this
    rcases hop with rfl | rfl <;> simp [BinVal] at hz

/-- A sub-expression of `e`. -/
inductive Sub : Ex → Ex → Prop
  | refl (e) : Sub e e
  | left {x op a b} : Sub x a → Sub x (.bin op a b)
  | right {x op a b} : Sub x b → Sub x (.bin op a b)
  | un {x op a} : Sub x a → Sub x (.un op a)

/-- C23.  An expression is reduced only if all its parts are: failure anywhere inside is
failure of the whole. -/
theorem fold_parts (sc : Scopes) (en : List (String × Int)) (e x : Ex) (hx : Sub x e) (v : Int)
    (h : fold sc en e = .ok (some v)) : ∃ w, fold sc en x = .ok (some w) := by
  induction hx generalizing v with
  | refl => exact ⟨v, h⟩
  | left _ ih =>
    rw [fold] at h
    obtain ⟨l, h1, _⟩ := andThen_some h
    exact ih _ h1
  | right _ ih =>
    rw [fold] at h
    obtain ⟨l, _, h2⟩ := andThen_some h
    obtain ⟨r, h3, _⟩ := andThen_some h2
    exact ih _ h3
  | un _ ih =>
    rw [fold] at h
    obtain ⟨l, h1, _⟩ := andThen_some h
    exact ih _ h1

/-- Every sub-expression has a representable value, shift counts are below 64 and the left
operand of `<<` is not negative: the conditions under which C defines the evaluation. -/
def Defined (ρ : String → Option Int) : Ex → Prop
  | .bin op a b => Defined ρ a ∧ Defined ρ b ∧ (∀ v, Value ρ (.bin op a b) v → InR v) ∧
      (∀ x y, Value ρ a x → Value ρ b y → (op = "<<" ∨ op = ">>" → y < 64) ∧
        (op = "<<" → 0 ≤ x) ∧ (op = "%" → InR (x.tdiv y)))
  | .un op a => Defined ρ a ∧ ∀ v, Value ρ (.un op a) v → InR v
  | .lit n => (n : Int) < 2 ^ 63
  | _ => True

/-- The folder finds the value of every name of the expression. -/
def Known (sc : Scopes) (en : List (String × Int)) (ρ : String → Option Int) : Ex → Prop
  | .var x => ∀ v, ρ x = some v → InR v ∧ fold sc en (.var x) = .ok (some v)
  | .bin _ a b => Known sc en ρ a ∧ Known sc en ρ b
  | .un _ a => Known sc en ρ a
  | _ => True

theorem binop_complete {op : String} {l r v : Int} (hl : InR l) (hr : InR r)
    (hv : BinVal op l r v) (hin : InR v) (hsh : op = "<<" ∨ op = ">>" → r < 64)
    (hpos : op = "<<" → 0 ≤ l) (hq : op = "%" → InR (l.tdiv r)) :
    binop op l r = .ok (some v) := by
  have key : ∃ w, binop op l r = .ok (some w) := by
    rcases hv with ⟨ho, h⟩ | ⟨ho, h⟩ | ⟨ho, h⟩ | ⟨ho, h⟩ | ⟨ho, h⟩ | ⟨ho, h⟩ | ⟨ho, h⟩ | ⟨ho, h⟩ |
        ⟨ho, h⟩ | ⟨ho, h⟩ <;> subst ho <;>
      simp only [binop, String.reduceEq, if_true, if_false]
    · subst h; exact ⟨_, by unfold chk; rw [if_pos hin]⟩
    · subst h; exact ⟨_, by unfold chk; rw [if_pos hin]⟩
    · subst h; exact ⟨_, by unfold chk; rw [if_pos hin]⟩
    · obtain ⟨hy, x, h1, h2, h3⟩ := h
      rw [if_neg hy]
      refine ⟨v, ?_⟩
      unfold divLL chk
      rw [← (tdiv_unique hy h1 h2 h3).1]
      exact if_pos hin
    · obtain ⟨hy, x, h1, h2, h3⟩ := h
      rw [if_neg hy]
      refine ⟨l.tmod r, ?_⟩
      unfold modLL
      rw [if_pos (hq rfl)]
    · obtain ⟨k, h1, h2⟩ := h
      refine ⟨v, ?_⟩
      have hlt := hsh (Or.inl rfl)
      unfold shlLL chk
      rw [if_pos ⟨by omega, hlt, hpos rfl⟩]
      have : r.toNat = k := by omega
      rw [this, ← h2, if_pos hin]
    · obtain ⟨k, h1, h2⟩ := h
      refine ⟨l >>> r.toNat, ?_⟩
      have hlt := hsh (Or.inr rfl)
      unfold shrLL
      rw [if_pos ⟨by omega, hlt⟩]
    · exact ⟨_, rfl⟩
    · exact ⟨_, rfl⟩
    · exact ⟨_, rfl⟩
  obtain ⟨w, hw⟩ := key
  have := (binop_some hl hr hw).1
  rw [hw, BinVal.det this hv]

theorem unop_complete {op : String} {l v : Int} (hl : InR l)
    (hv : UnVal op l v) (hin : InR v) : unop op l = .ok (some v) := by
  have key : ∃ w, unop op l = .ok (some w) := by
    rcases hv with ⟨ho, h⟩ | ⟨ho, h⟩ | ⟨ho, h⟩ <;> subst ho <;>
      simp only [unop, String.reduceEq, if_true, if_false]
    · subst h; exact ⟨_, by unfold chk; rw [if_pos hin]⟩
    · exact ⟨_, rfl⟩
    · exact ⟨_, rfl⟩
  obtain ⟨w, hw⟩ := key
  have := (unop_some hl hw).1
  rw [hw, UnVal.det this hv]

/-- C23.  An expression that C evaluates without undefined behaviour, over known constants,
is reduced, and to its value; in particular folding it is free of undefined behaviour. -/
theorem fold_complete (sc : Scopes) (en : List (String × Int)) (ρ : String → Option Int)
    (e : Ex) (v : Int) (hv : Value ρ e v) (hd : Defined ρ e) (hk : Known sc en ρ e) :
    fold sc en e = .ok (some v) ∧ InR v := by
  induction hv with
  | lit n =>
    refine ⟨by rw [fold, toLL_of_lt hd], ?_⟩
    simp only [Defined] at hd; unfold InR half; omega
  | var hx => exact ⟨(hk _ hx).2, (hk _ hx).1⟩
  | bin ha hb hz i1 i2 =>
    have ⟨f1, r1⟩ := i1 hd.1 hk.1
    have ⟨f2, r2⟩ := i2 hd.2.1 hk.2
    have hin := hd.2.2.1 _ (.bin ha hb hz)
    have ⟨c1, c2, c3⟩ := hd.2.2.2 _ _ ha hb
    refine ⟨?_, hin⟩
    rw [fold, f1]; simp only [andThen]; rw [f2]; simp only
    exact binop_complete r1 r2 hz hin c1 c2 c3
  | un ha hz i1 =>
    have ⟨f1, r1⟩ := i1 hd.1 hk
    have hin := hd.2 _ (.un ha hz)
    refine ⟨?_, hin⟩
    rw [fold, f1]; simp only [andThen]
    exact unop_complete r1 hz hin

/-! Violations -/

/-- C23 fails: the folder overflows (undefined behaviour inside the compiler) on
`9223372036854775807 + 1`, on `1 << 64`, on `-1 << 1` and on `(-9223372036854775807 - 1) / -1`,
which aborts the compiler on common hardware. -/
theorem fold_overflow_violated :
    fold [] [] (.bin "+" (.lit 9223372036854775807) (.lit 1)) = .ub ∧
    fold [] [] (.bin "<<" (.lit 1) (.lit 64)) = .ub ∧
    fold [] [] (.bin "<<" (.un "-" (.lit 1)) (.lit 1)) = .ub ∧
    fold [] [] (.bin "/" (.bin "-" (.un "-" (.lit 9223372036854775807)) (.lit 1))
      (.un "-" (.lit 1))) = .ub := by
  decide +kernel

/-- C23 fails: a literal of 2^63 or more changes sign: `18446744073709551615 / 2` is
reduced to zero. -/
theorem fold_literal_violated :
    fold [] [] (.bin "/" (.lit 18446744073709551615) (.lit 2)) = .ok (some 0) ∧
    Value (fun _ => none) (.bin "/" (.lit 18446744073709551615) (.lit 2))
      9223372036854775807 := by
  refine ⟨by decide +kernel, .bin (.lit _) (.lit _) ?_⟩
  refine Or.inr (Or.inr (Or.inr (Or.inl ⟨rfl, by decide, 1, by decide, by decide, by decide⟩)))

/-! ## Declarations -/

/-- Two lists related element by element. -/
inductive All2 {α β : Type} (R : α → β → Prop) : List α → List β → Prop
  | nil : All2 R [] []
  | cons {a b as bs} : R a b → All2 R as bs → All2 R (a :: as) (b :: bs)

/-- The run-time environment matches the symbol table: same names in the same places, and
recorded constants are what the names are worth. -/
def MatchS (s : Sym) (p : String × Option Int) : Prop :=
  s.name = p.1 ∧ (s.isConst = true → p.2 = some s.val ∧ I32 s.val)

/-- See `MatchS`. -/
abbrev Match (en : List (String × Int)) : Scopes → Env → Prop :=
  All2 (fun sc r => All2 (fun s p => MatchS s p ∧ findEnum en s.name = none) sc r)

theorem find_match {en : List (String × Int)} {sc : List Sym} {r : List (String × Option Int)}
    (h : All2 (fun s p => MatchS s p ∧ findEnum en s.name = none) sc r) (x : String) :
    (sc.find? (fun s => s.name == x) = none ∧ r.find? (fun p => p.1 == x) = none) ∨
    ∃ s p, sc.find? (fun s => s.name == x) = some s ∧ r.find? (fun p => p.1 == x) = some p ∧
      MatchS s p ∧ findEnum en x = none := by
  induction h with
  | nil => exact Or.inl ⟨rfl, rfl⟩
  | @cons s p sc r hd _ ih =>
    simp only [List.find?_cons]
    rw [hd.1.1]
    cases hc : (p.1 == x) with
    | true =>
      refine Or.inr ⟨s, p, rfl, rfl, hd.1, ?_⟩
      have := hd.2
      rw [hd.1.1, beq_iff_eq.mp hc] at this
      exact this
    | false => exact ih

theorem look_match {en : List (String × Int)} {sc : Scopes} {ρ : Env} (h : Match en sc ρ)
    (x : String) :
    (findSym sc x = none ∧ look ρ x = none) ∨
    ∃ s o, findSym sc x = some s ∧ look ρ x = some o ∧
      (s.isConst = true → o = some s.val ∧ I32 s.val) ∧ findEnum en x = none := by
  induction h with
  | nil => exact Or.inl ⟨rfl, rfl⟩
  | cons hd _ ih =>
    rcases find_match hd x with ⟨h1, h2⟩ | ⟨s, p, h1, h2, h3, h4⟩
    · simp only [findSym, look, h1, h2]; exact ih
    · simp only [findSym, look, h1, h2]
      exact Or.inr ⟨s, p.2, rfl, rfl, h3.2, h4⟩

theorem agree_of_match {en : List (String × Int)} {sc : Scopes} {ρ : Env} (h : Match en sc ρ)
    (hen : ∀ p ∈ en, I32 p.2) : Agree sc en (rho en ρ) := by
  constructor
  · intro x n v hf
    rcases look_match h x with ⟨h1, _⟩ | ⟨s, o, h1, h2, h3, _⟩
    · rw [h1] at hf; cases hf
    · rw [h1] at hf; injection hf with hf; subst hf
      have ⟨a, b⟩ := h3 rfl
      refine ⟨by unfold rho; rw [h2]; exact a, ?_⟩
      unfold I32 at b; simp only at b; unfold InR half; omega
  · intro x v hf he
    rcases look_match h x with ⟨h1, h2⟩ | ⟨s, o, h1, h2, h3, h4⟩
    · refine ⟨by unfold rho; rw [h2]; exact he, ?_⟩
      unfold findEnum at he
      cases hq : en.find? (fun p => p.1 == x) with
      | none => rw [hq] at he; cases he
      | some p =>
        rw [hq] at he
        simp only [Option.map_some, Option.some.injEq] at he
        have := hen p (List.mem_of_find?_eq_some hq)
        rw [he] at this
        unfold I32 at this; unfold InR half; omega
    · rw [h4] at he; cases he

theorem match_add {en : List (String × Int)} {sc : Scopes} {ρ : Env} (h : Match en sc ρ)
    {s : Sym} {o : Option Int} (hm : MatchS s (s.name, o)) (hn : findEnum en s.name = none) :
    Match en (addSym s sc) (bind s.name o ρ) := by
  cases h with
  | nil => exact .cons (.cons ⟨hm, hn⟩ .nil) .nil
  | cons hd tl => exact .cons (.cons ⟨hm, hn⟩ hd) tl

theorem setConst_add (s : Sym) (v : Int) (sc : Scopes) :
    setConst v (addSym s sc) = addSym { s with isConst := true, val := v } sc := by
  cases sc <;> rfl

theorem step_match {en : List (String × Int)} (hen : ∀ p ∈ en, I32 p.2) :
    ∀ (prog : List Stmt) (s s' : St) (ρ ρ' : Env) (zs zs' : List Int),
      (∀ x ∈ prog, Plain en x) → Match en s.sc ρ → s.sizes = zs →
      run en s prog = .ok s' → Exec I32 en ρ zs prog ρ' zs' → s'.sizes = zs' := by
  intro prog
  induction prog with
  | nil =>
    intro s s' ρ ρ' zs zs' _ _ hz hr he
    cases he
    simp only [run, Res.ok.injEq] at hr
    subst hr; exact hz
  | cons x prog ih =>
    intro s s' ρ ρ' zs zs' hp hm hz hr he
    have hp' : ∀ y ∈ prog, Plain en y := fun y hy => hp y (List.mem_cons_of_mem _ hy)
    have hx := hp x List.mem_cons_self
    rw [run] at hr
    cases he with
    | enter he => exact ih { s with sc := [] :: s.sc } _ _ _ _ _ hp' (.cons .nil hm) hz hr he
    | leave he =>
      cases hsc : s.sc with
      | nil => rw [hsc] at hm; cases hm
      | cons c sc =>
        rw [hsc] at hm
        cases hm with
        | cons _ tl =>
          refine ih { s with sc := sc } _ _ _ _ _ hp' tl hz ?_ he
          simpa only [step, hsc, List.tail_cons, Res.ok_bind] using hr
    | @def_ _ _ n e o _ _ _ hw hP he =>
      simp only [step] at hr
      have hn : findEnum en n = none := by unfold findEnum; rw [hx.1]; rfl
      have hm0 : Match en (addSym ⟨n, false, 0⟩ s.sc) (bind n none ρ) :=
        match_add (s := ⟨n, false, 0⟩) hm ⟨rfl, by simp⟩ hn
      cases hf : fold (addSym ⟨n, false, 0⟩ s.sc) en e with
      | panic => rw [hf] at hr; simp at hr
      | ub => rw [hf] at hr; simp at hr
      | ok r =>
        rw [hf] at hr
        cases r with
        | none =>
          exact ih { s with sc := addSym ⟨n, false, 0⟩ s.sc } _ _ _ _ _ hp'
            (match_add (s := ⟨n, false, 0⟩) hm ⟨rfl, by simp⟩ hn) hz hr he
        | some v =>
          have ⟨hv, _⟩ := fold_sound_partial _ en _ (agree_of_match hm0 hen) e hx.2 v hf
          have ho : o = some v := (hw v).mpr hv
          subst ho
          have h32 := hP v rfl
          simp only [Res.ok_bind, setConst_add, toInt32_of h32] at hr
          exact ih { s with sc := addSym ⟨n, true, v⟩ s.sc } _ _ _ _ _ hp'
            (match_add (s := ⟨n, true, v⟩) hm ⟨rfl, fun _ => ⟨rfl, h32⟩⟩ hn)
            hz hr he
    | @let_ _ _ n e o _ _ _ hw hP he =>
      have hn : findEnum en n = none := by unfold findEnum; rw [hx.1]; rfl
      have plain : ∀ s1 : St, s1.sc = addSym ⟨n, false, 0⟩ s.sc → s1.sizes = zs →
          run en s1 prog = .ok s' → s'.sizes = zs' := by
        intro s1 hs1 hz1 hr1
        refine ih s1 _ _ _ _ _ hp' ?_ hz1 hr1 he
        rw [hs1]
        exact match_add (s := ⟨n, false, 0⟩) hm ⟨rfl, by simp⟩ hn
      cases e with
      | lit k =>
        have hv : Value (rho en (bind n none ρ)) (.lit k) k := .lit k
        have ho : o = some (k : Int) := (hw k).mpr hv
        subst ho
        have h32 := hP k rfl
        simp only [step, Res.ok_bind, setConst_add, toInt32_of h32] at hr
        exact ih { s with sc := addSym ⟨n, true, k⟩ s.sc } _ _ _ _ _ hp'
          (match_add (s := ⟨n, true, k⟩) hm ⟨rfl, fun _ => ⟨rfl, h32⟩⟩ hn)
          hz hr he
      | var _ => exact plain { s with sc := addSym ⟨n, false, 0⟩ s.sc } rfl hz hr
      | bin _ _ _ => exact plain { s with sc := addSym ⟨n, false, 0⟩ s.sc } rfl hz hr
      | un _ _ => exact plain { s with sc := addSym ⟨n, false, 0⟩ s.sc } rfl hz hr
      | other => exact plain { s with sc := addSym ⟨n, false, 0⟩ s.sc } rfl hz hr
    | assign _ _ => exact absurd hx (by simp [Plain])
    | @size _ _ e v _ _ _ hv hP he =>
      simp only [step] at hr
      cases hf : fold s.sc en e with
      | panic => rw [hf] at hr; simp at hr
      | ub => rw [hf] at hr; simp at hr
      | ok r =>
        rw [hf] at hr
        cases r with
        | none => simp at hr
        | some w =>
          have ⟨hw, _⟩ := fold_sound_partial _ en _ (agree_of_match hm hen) e hx w hf
          have := Value.det hw hv
          subst this
          simp only [Res.ok_bind, toInt32_of hP] at hr
          refine ih { s with sizes := s.sizes ++ [w] } _ _ _ _ _ hp' hm ?_ hr he
          rw [hz]

/-- C51.  In a program that compiles, never reassigns a variable, keeps the values of its
constants within 32 bits and declares no name that is also an enum variant, every array has
the length its size expression is worth at that point. -/
theorem array_sizes_partial (en : List (String × Int)) (hen : ∀ p ∈ en, I32 p.2)
    (prog : List Stmt) (hp : ∀ x ∈ prog, Plain en x) (s' : St) (ρ' : Env) (zs' : List Int)
    (hr : run en ⟨[], []⟩ prog = .ok s') (he : Exec I32 en [] [] prog ρ' zs') :
    s'.sizes = zs' :=
  step_match hen prog ⟨[], []⟩ s' [] ρ' [] zs' hp .nil rfl hr he

/-- C51 fails for constants above 32 bits: after `def N = 4294967297;` an array of length
`N` gets length 1. -/
theorem def_wide_violated :
    run [] ⟨[], []⟩ [.def_ "N" (.lit 4294967297), .size (.var "N")] =
      .ok ⟨[[⟨"N", true, 1⟩]], [1]⟩ ∧
    ∃ ρ', Exec (fun _ => True) [] [] [] [.def_ "N" (.lit 4294967297), .size (.var "N")] ρ'
      [4294967297] := by
  refine ⟨by decide +kernel, _, .def_ (o := some 4294967297) ?_ (fun _ _ => trivial)
    (.size (.var rfl) trivial .nil)⟩
  intro v
  refine ⟨fun h => by injection h with h; subst h; exact .lit _, fun h => by cases h; rfl⟩

/-- C51 fails for sizes above 32 bits: an array of length 4294967297 gets length 1. -/
theorem size_wide_violated :
    run [] ⟨[], []⟩ [.size (.lit 4294967297)] = .ok ⟨[], [1]⟩ ∧
    ∃ ρ', Exec (fun _ => True) [] [] [] [.size (.lit 4294967297)] ρ' [4294967297] := by
  exact ⟨by decide +kernel, _, .size (.lit _) trivial .nil⟩

/-- C51 fails after an assignment: with `let n = 5; n = 9;` an array of length `n` gets
length 5. -/
theorem let_reassigned_violated :
    run [] ⟨[], []⟩ [.let_ "n" (.lit 5), .assign "n" (.lit 9), .size (.var "n")] =
      .ok ⟨[[⟨"n", true, 5⟩]], [5]⟩ ∧
    ∃ ρ', Exec I32 [] [] [] [.let_ "n" (.lit 5), .assign "n" (.lit 9), .size (.var "n")] ρ'
      [9] := by
  have w : ∀ (ρ : String → Option Int) (k : Nat), Worth ρ (.lit k) (some (k : Int)) := by
    intro ρ k v
    exact ⟨fun h => by injection h with h; subst h; exact .lit _, fun h => by cases h; rfl⟩
  refine ⟨by decide +kernel, _, .let_ (w _ 5) (fun v h => ?_) (.assign (w _ 9)
    (.size (v := 9) (.var ?_) ?_ .nil))⟩
  · injection h with h; subst h; unfold I32; decide
  · decide +kernel
  · unfold I32; decide

/-- C51 fails for a variable named like an enum variant: after `let Color_Red = f();` an
array of length `Color_Red` gets the number of the variant. -/
theorem variant_name_violated :
    run [("Color_Red", 7)] ⟨[], []⟩ [.let_ "Color_Red" .other, .size (.var "Color_Red")] =
      .ok ⟨[[⟨"Color_Red", false, 0⟩]], [7]⟩ ∧
    ∀ v, ¬ Value (rho [("Color_Red", 7)] [[("Color_Red", none)]]) (.var "Color_Red") v := by
  refine ⟨by decide +kernel, fun v h => ?_⟩
  cases h with
  | var h => exact absurd h (by simp [rho, look])

/-! ## The hypotheses are met by non-trivial cases -/

/-- `(7 - 3) * 5 << 2 & 0xff | ~0`, over a constant. -/
example : ∃ v, fold [[⟨"W", true, 5⟩]] [] (.bin "|" (.bin "&" (.bin "<<" (.bin "*"
    (.bin "-" (.lit 7) (.lit 3)) (.var "W")) (.lit 2)) (.lit 255)) (.un "~" (.lit 0))) =
    .ok (some v) ∧ v = -1 := ⟨-1, by decide +kernel, rfl⟩

example : fold [] [] (.bin "/" (.un "-" (.lit 7)) (.lit 2)) = .ok (some (-3)) := by decide +kernel
example : fold [] [] (.bin "%" (.un "-" (.lit 7)) (.lit 2)) = .ok (some (-1)) := by decide +kernel
example : fold [] [] (.bin ">>" (.un "-" (.lit 7)) (.lit 1)) = .ok (some (-4)) := by decide +kernel
example : fold [] [] (.bin "/" (.lit 1) (.bin "-" (.lit 2) (.lit 2))) = .ok none := by
  decide +kernel

example : Agree [[⟨"W", true, 5⟩]] [("E_A", 1)] (rho [("E_A", 1)] [[("W", some 5)]]) := by
  refine agree_of_match (.cons (.cons ⟨⟨rfl, fun _ => ⟨rfl, by unfold I32; decide⟩⟩, by decide⟩ .nil) .nil) ?_
  intro p hp
  simp only [List.mem_cons, List.not_mem_nil, or_false] at hp
  subst hp; unfold I32; decide

/-- A program with nested scopes and shadowing meets the hypotheses of
`array_sizes_partial`. -/
example : run [] ⟨[], []⟩ [.def_ "N" (.lit 4), .enter, .def_ "N" (.lit 6), .size (.var "N"),
    .leave, .size (.bin "*" (.var "N") (.lit 2))] =
    .ok ⟨[[⟨"N", true, 4⟩]], [6, 8]⟩ := by decide +kernel

end Verif.ConstFold
