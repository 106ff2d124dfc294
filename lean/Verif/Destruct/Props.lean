import Verif.Destruct.Lemmas

/-!
# C94, C95: destructuring and `let .. else`
-/

namespace Verif.Destruct
open Verif Spec

variable (orc : Nat → List Val → Val)

/-! ## C94: every name gets its field of the one value -/

/-- **C94/C95 (part).**  A function body whose patterns have at most sixteen names, whose names are
declared once, whose guards are for options and results and defer nothing in their `else` block, and
which takes apart only values without a destructor, shows exactly what it should: every initialiser
is evaluated once, every name has the value of its field, a guard binds the payload or runs its
`else` block and leaves, and what was deferred happens last to first, on every path.  Missing:
everything the `_violated` theorems below are about. -/
theorem taken_partial (b : Block) (t : List Ev) (hf : FreshB [] b) (hp : PlainB b)
    (h : shows orc b = some t) : result orc b = .ok (some t) := by
  simp only [shows, Option.map_eq_some_iff] at h
  obtain ⟨⟨q, ev, E', P'⟩, hr, rfl⟩ := h
  obtain ⟨ρ', h1, _⟩ := sim (orc := orc) (.block b) [] 0 [] [] [] [] q ev E' P'
    (fun x v h => by simp at h) (fun x v h => by simp at h) trivial hf hp hr
  have h2 := (text_tidy (.block b) [] 0 [] hf).1
  simp only [result, plain_narrowB b hp, if_true, h2, h1, Option.map_some]

/-- Running pattern by pattern: the value is computed once, whatever the number of names. -/
theorem once (p : Pat) (own : Bool) (f : Nat) (xs : List String) (ds : List Cl) (n : Nat)
    (ρ ρ' : CEnv) (q : Bool) (ev : List Ev)
    (h : runCB orc (emit (.pat p own (.call f xs)) ds n).1 ρ = some (q, ev, ρ')) :
    ∃ vs, vals ρ xs = some vs ∧ ev = [.called f vs] ∧ q = false := by
  have quiet : ∀ (bs : List (String × String)) (ρ ρ' : CEnv) (q : Bool) (ev : List Ev),
      runCB orc (bindText n bs) ρ = some (q, ev, ρ') → ev = [] ∧ q = false := by
    intro bs
    induction bs with
    | nil =>
      intro ρ ρ' q ev h
      simp only [bindText, runCB, Option.some.injEq, Prod.mk.injEq] at h
      exact ⟨h.2.1.symm, h.1.symm⟩
    | cons b r ih =>
      intro ρ ρ' q ev h
      simp only [bindText, runCB, runC, evalC_field] at h
      cases hv : (ρ.lookup (.tmp n)).bind (·.field b.1) with
      | none => simp [hv] at h
      | some w =>
        simp only [hv, Option.map_some] at h
        cases hr : runCB orc (bindText n r) ((.user b.2, w) :: ρ) with
        | none => simp [hr] at h
        | some u =>
          obtain ⟨q1, ev1, ρ1⟩ := u
          simp only [hr, Option.some.injEq, Prod.mk.injEq, List.nil_append] at h
          obtain ⟨rfl, rfl, _⟩ := h
          exact ih _ _ _ _ hr
  simp only [emit, runCB, runC, evalC] at h
  cases hv : vals ρ xs with
  | none => simp [hv] at h
  | some vs =>
    simp only [hv, Option.map_some] at h
    cases hr : runCB orc (bindText n p.binds) ((.tmp n, orc f vs) :: ρ) with
    | none => simp [hr] at h
    | some u =>
      obtain ⟨q1, ev1, ρ1⟩ := u
      obtain ⟨rfl, rfl⟩ := quiet _ _ _ _ _ hr
      simp only [hr, Option.some.injEq, Prod.mk.injEq, List.append_nil] at h
      exact ⟨vs, rfl, h.2.1.symm, h.1.symm⟩

/-- A list of statements. -/
def blk : List Stmt → Block
  | [] => .nil
  | s :: r => .cons s (blk r)

/-- `Some(n)` and `None` as values: a struct with both fields (/repo/std/option.zc:4-7). -/
def some' (v : Val) : Val := .obj [("is_some", .num 1), ("val", v)]
def none' : Val := .obj [("is_some", .num 0), ("val", .num 0)]

/-- `let p = f1(); let Point{y: a, x: b} = p; let (c, d) = f2(a); defer say 1 (c);
let Some(v) = <o> else { say 2 (); return; } say 3 (v, b, d)`. -/
def sample (o : Val) : Block := blk
  [.lets "p" false (.call 1 []),
   .pat (.named "Point" [("y", "a"), ("x", "b")]) false (.var "p"),
   .pat (.tuple ["c", "d"]) false (.call 2 ["a"]),
   .defer 1 ["c"],
   .guard "Some" "v" (.con o) (blk [.say 2 [], .ret]),
   .say 3 ["v", "b", "d"]]

/-- Functions for the samples. -/
def fun' : Nat → List Val → Val
  | 1, _ => .obj [("x", .num 10), ("y", .num 20)]
  | _, vs => .obj [("v0", .num 5), ("v1", vs.headD (.num 0))]

/-- The sample meets the hypotheses of `taken_partial`, on both paths. -/
theorem sample_demo :
    FreshB [] (sample none') ∧ PlainB (sample none') ∧
    shows fun' (sample (some' (.num 7))) = some
      [.called 1 [], .called 2 [.num 20], .said 3 [.num 7, .num 10, .num 20], .said 1 [.num 5]] ∧
    shows fun' (sample none') = some
      [.called 1 [], .called 2 [.num 20], .said 2 [], .said 1 [.num 5]] := by
  refine ⟨?_, ?_, ?_, ?_⟩
  · simp [sample, blk, FreshB, Fresh, names, wanted, List.range, List.range.loop]
  · simp [sample, blk, PlainB, Plain, Quiet, wanted, List.range, List.range.loop]
  · rfl
  · rfl

/-- **Violation (C94).**  Whether the value has a destructor makes no difference to what is printed
for a pattern: a value that is taken apart is never dropped. -/
theorem own_violated (p : Pat) (e : Expr) (ds : List Cl) (n : Nat) :
    emit (.pat p true e) ds n = emit (.pat p false e) ds n := rfl

/-- For instance `let {fd} = open();` when the type of `open()` has a destructor. -/
theorem undropped_violated :
    shows (fun _ _ => .obj [("fd", .num 3)]) (blk [.pat (.anon ["fd"]) true (.call 1 [])]) = some
      [.called 1 [], .dropped (.obj [("fd", .num 3)])] ∧
    result (fun _ _ => .obj [("fd", .num 3)]) (blk [.pat (.anon ["fd"]) true (.call 1 [])]) = .ok (some
      [.called 1 []]) := by
  constructor
  · rfl
  · simp [result, blk, narrowB, narrow, Pat.width, emit, emitB, unwind, CBlock.app, Pat.binds, bindText,
      tidyB, tidy, CBlock.declared, runCB, runC, evalC, vals, List.lookup, Val.field]

/-- **Violation (C94).**  A pattern with more than sixteen names, anywhere in a function, writes past
the table the compiler keeps the names in. -/
theorem wide_violated (k : Nat) (hk : 16 < k) (b : Block) (h : WideB k b) : result orc b = .ub := by
  simp [result, wide_narrowB k hk b h]

/-- A tuple of seventeen elements in an `else` block. -/
theorem wide_demo : WideB 17 (blk [.say 1 [], .guard "Some" "v" (.con none') (blk [.block (blk
    [.pat (.tuple ["a", "b", "c", "d", "e", "f", "g", "h", "i", "j", "k", "l", "m", "n", "o", "p", "q"])
      false (.call 1 [])])])]) := by
  simp [blk, WideB, Wide, wanted]

/-- **Violation (C94).**  A second pattern that leaves a place out with `_`, the way `match` allows,
is refused: `_` is a variable. -/
theorem underscore_violated :
    result fun' (blk [.pat (.tuple ["a", "_"]) false (.call 2 []),
      .pat (.tuple ["_", "b"]) false (.call 2 [])]) = .ok none := by
  simp [result, blk, narrowB, narrow, Pat.width, emit, emitB, unwind, CBlock.app, Pat.binds,
    Pat.binds.go, bindText, tidyB, tidy, CBlock.declared]

/-! ## C95: `else` leaves -/

/-- A guard whose value is of the variant binds its payload and runs nothing else. -/
theorem payload (c x : String) (hc : c = "Some" ∨ c = "Ok" ∨ c = "Err") (els : Block) (ds : List Cl)
    (n : Nat) (ρ : CEnv) (v w : Val) (ev : List Ev) (src : Expr)
    (hv : evalC orc ρ (.src src) = some (v, ev)) (ho : opened c v = some (some w)) :
    runCB orc (emit (.guard c x src els) ds n).1 ρ
      = some (false, ev, (.user x, w) :: (.tmp n, v) :: ρ) := by
  obtain ⟨b, w', hb, hw, rfl, rfl⟩ := opened_text hc ho
  simp only [emit, runCB, runC, hv, Option.map_some, lookup_cons, if_true,
    Option.bind_some, hb, bne_self_eq_false, Bool.false_eq_true, if_false, evalC_field, hw,
    List.append_nil]

/-- A guard whose value is of the other variant runs its `else` block, and binds nothing if the block
leaves. -/
theorem leaves (c x : String) (hc : c = "Some" ∨ c = "Ok" ∨ c = "Err") (els : Block) (ds : List Cl)
    (n : Nat) (ρ : CEnv) (v : Val) (ev : List Ev) (src : Expr)
    (hv : evalC orc ρ (.src src) = some (v, ev)) (ho : opened c v = some none) (ev' : List Ev) (ρ' : CEnv)
    (hr : runCB orc (emitB els ds (n + 1)).1 ((.tmp n, v) :: ρ) = some (true, ev', ρ')) :
    runCB orc (emit (.guard c x src els) ds n).1 ρ = some (true, ev ++ ev', (.tmp n, v) :: ρ) := by
  obtain ⟨b, w', hb, hw, hne⟩ := opened_text hc ho
  have hne : (b != (guardText c).2.1) = true := by simpa using hne
  simp only [emit, runCB, runC, hv, Option.map_some, lookup_cons, if_true,
    Option.bind_some, hb, hne, hr]

/-- `Err` of a result that is an error, and of one that is not. -/
theorem err_demo :
    opened "Err" (.obj [("is_ok", .num 0), ("val", .num 0), ("err", .num 9)]) = some (some (.num 9)) ∧
    opened "Err" (.obj [("is_ok", .num 1), ("val", .num 4), ("err", .num 0)]) = some none ∧
    opened "Ok" (.obj [("is_ok", .num 1), ("val", .num 4), ("err", .num 0)]) = some (some (.num 4)) :=
  ⟨rfl, rfl, rfl⟩

/-- **Violation (C95).**  What the `else` block defers is left on the stack of the function: it also
happens when the block was never entered. -/
theorem deferred_violated :
    let b := blk [.guard "Some" "v" (.con (some' (.num 7))) (blk [.defer 1 [], .ret]), .say 2 ["v"]]
    shows orc b = some [.said 2 [.num 7]] ∧
    result orc b = .ok (some [.said 2 [.num 7], .said 1 []]) := by
  constructor
  · rfl
  · simp [result, blk, narrowB, narrow, emit, emitB, unwind, CBlock.app, guardText, Cl.stm, truth,
      tidyB, tidy, CBlock.declared, runCB, runC, evalC, vals, List.lookup, Val.field, some']

/-- **Violation (C95).**  A variable with a destructor in the `else` block is dropped at the end of the
function, where it does not exist: the C text is refused. -/
theorem local_violated :
    let b := blk [.guard "Some" "v" (.con (some' (.num 7))) (blk [.lets "m" true (.con (.num 1)), .ret]),
      .say 2 ["v"]]
    shows orc b = some [.said 2 [.num 7]] ∧ result orc b = .ok none := by
  have h1 : (CVar.user "m" == CVar.user "v") = false := by decide
  have h2 : (CVar.user "m" == CVar.tmp 0) = false := by decide
  constructor
  · rfl
  · simp [h1, h2, result, blk, narrowB, narrow, emit, emitB, unwind, CBlock.app, guardText, Cl.stm, truth,
      tidyB, tidy, CBlock.declared, runCB, runC, evalC, vals, List.lookup, Val.field, some']

/-- **Violation (C95).**  Nothing requires the `else` block to leave: if it does not, the function goes
on with a payload that is not there. -/
theorem falls_violated :
    let b := blk [.guard "Some" "v" (.con none') (blk [.say 1 []]), .say 2 ["v"]]
    shows orc b = none ∧ result orc b = .ok (some [.said 1 [], .said 2 [.num 0]]) := by
  constructor
  · rfl
  · simp [result, blk, narrowB, narrow, emit, emitB, unwind, CBlock.app, guardText, truth,
      tidyB, tidy, CBlock.declared, runCB, runC, evalC, vals, List.lookup, Val.field, none']

/-- **Violation (C95).**  Variants of enums of the program cannot be guarded against: the text tests a
field `is_<variant>`, which enums do not have. -/
theorem enum_violated (c x tag : String) (w : Val) (els r : Block) (t : List Ev) :
    result orc (.cons (.guard c x (.con (.variant tag w)) els) r) ≠ .ok (some t) := by
  intro h
  simp only [result] at h
  split at h
  · simp only [Res.ok.injEq] at h
    split at h
    · simp [emit, emitB, CBlock.app, runCB, runC, evalC, lookup_cons, Val.field] at h
    · simp at h
  · simp at h

/-- Although the program is a good one: `let Circle(r) = s else { return; } say 1 (r)`. -/
theorem enum_demo : shows orc (blk [.guard "Circle" "r" (.con (.variant "Circle" (.num 5)))
    (blk [.ret]), .say 1 ["r"]]) = some [.said 1 [.num 5]] := by
  simp [shows, blk, run, runB, eval, args, opened, List.lookup]

end Verif.Destruct
