import Verif.Comptime.Model

/-!
# A block is replaced by what it prints
-/

namespace Verif.Comptime

open Spec

/-! ## The text of a block -/

theorem source_append (a b : List Tok) : source (a ++ b) = source a ++ source b := List.flatMap_append ..

theorem pass_bal {a : List Tok} (h : Bal a) : ∀ (d : Nat) (s : Str) (r : List Tok), 0 < d →
    pass d s (a ++ r) = pass d (s ++ source a) r := by
  induction h with
  | nil => intro d s r _; simp [source]
  | tok ht _ ih =>
    rename_i t ts _
    intro d s r hd
    have e : source (t :: ts) = t.pre ++ t.text ++ source ts := by simp [source]
    rw [List.cons_append, pass, ht]
    simp only [reduceCtorEq, if_false]
    rw [if_neg (by omega), ih d _ r hd, e]
    simp only [List.append_assoc]
  | block ho _ hc _ iha ihb =>
    rename_i o a c b _ _
    intro d s r hd
    have e : source (o :: (a ++ c :: b)) = o.pre ++ (o.text ++ (source a ++ (c.pre ++ (c.text ++ source b)))) := by
      simp [source]
    rw [List.cons_append, pass, ho]
    simp only [reduceCtorEq, if_false, if_true, Nat.succ_ne_zero]
    rw [List.append_assoc a, iha (d + 1) _ _ (by omega), List.cons_append, pass, hc]
    simp only [reduceCtorEq, if_false, if_true, Nat.add_sub_cancel]
    rw [if_neg (by omega), ihb d _ r hd, e]
    simp only [List.append_assoc]

/-- **The text of a block is what is between its braces**, with blanks and comments, whatever blocks are in it. -/
theorem block_text {a : List Tok} (h : Bal a) {c : Tok} (hc : c.kind = .rbrace) (ht : c.text = ['}']) (r : List Tok) :
    blockText (a ++ c :: r) = some (source a ++ c.pre, r) := by
  unfold blockText
  rw [pass_bal h 1 [] _ (by omega), pass, hc]
  simp only [reduceCtorEq, if_false, if_true]
  rw [ht, List.nil_append, Option.map_some]
  simp only
  rw [List.dropLast_concat]

/-- A block that is not closed is reported. -/
theorem block_open {a : List Tok} (h : Bal a) : blockText a = none := by
  have := pass_bal h 1 [] [] (by omega)
  rw [List.append_nil] at this
  unfold blockText
  rw [this]
  rfl

example : Bal [⟨.other, "\n  ".toList, "if".toList⟩, ⟨.lbrace, " ".toList, "{".toList⟩, ⟨.rbrace, " // c\n".toList, "}".toList⟩] :=
  .tok rfl (.block (a := []) (b := []) rfl .nil rfl .nil)

/-! ## The program -/

theorem items_append (k : List Str) (a b : List Item) :
    Items k (a ++ b) ↔ Items k a ∧ Items ((names a).reverse ++ k) b := by
  induction a generalizing k with
  | nil => simp [Items, names]
  | cons i a ih =>
    cases i with
    | global n us => simp [Items, names, ih, and_assoc]
    | proto n => simp [Items, names, ih]
    | func n us => simp [Items, names, ih, and_assoc]

theorem names_append (a b : List Item) : names (a ++ b) = names a ++ names b := by
  induction a with
  | nil => rfl
  | cons i a ih => cases i <;> simp [names, ih]

/-- The names of `@comptime` functions. -/
def hnames (fs : List Fn) : List Str := (fs.filter (·.comptime)).map (·.name)

/-- Each `@comptime` function of the list, latest first, uses only what is known, itself, and those parsed later. -/
def HelpersOk (k : List Str) (fs : List Fn) : Prop :=
  ∀ a f b, fs = a ++ f :: b → f.comptime = true → ∀ u ∈ f.uses, u ∈ k ∨ u = f.name ∨ u ∈ hnames a

theorem items_mem {k k' : List Str} (h : ∀ x, x ∈ k ↔ x ∈ k') (is : List Item) : Items k is ↔ Items k' is := by
  induction is generalizing k k' with
  | nil => exact Iff.rfl
  | cons i is ih =>
    have hc : ∀ n x, x ∈ n :: k ↔ x ∈ n :: k' := fun n x => by simp [h]
    cases i with
    | global n us =>
      simp only [Items]
      rw [ih (hc n)]
      refine and_congr_left fun _ => ⟨fun hs x hx => (h x).1 (hs hx), fun hs x hx => (h x).2 (hs hx)⟩
    | proto n =>
      simp only [Items]
      exact ih (hc n)
    | func n us =>
      simp only [Items]
      rw [ih (hc n)]
      refine and_congr_left fun _ => ⟨fun hs x hx => (hc n x).1 (hs hx), fun hs x hx => (hc n x).2 (hs hx)⟩

theorem helpers_items (k : List Str) (fs : List Fn) : Items k (helpers fs) ↔ HelpersOk k fs := by
  induction fs generalizing k with
  | nil =>
    simp only [helpers, Items, true_iff]
    intro a f b e
    cases a <;> cases e
  | cons f fs ih =>
    rw [helpers]
    by_cases hf : f.comptime = true
    · rw [if_pos hf]
      simp only [Items]
      have hk : ∀ x, x ∈ f.name :: f.name :: k ↔ x ∈ f.name :: k := by simp
      rw [items_mem hk, ih]
      constructor
      · rintro ⟨h1, h2⟩ a g b e hg u hu
        cases a with
        | nil =>
          cases e
          have := h1 hu
          simp only [List.mem_cons] at this
          rcases this with h | h | h
          · exact .inr (.inl h)
          · exact .inr (.inl h)
          · exact .inl h
        | cons x a =>
          cases e
          rcases h2 a g b rfl hg u hu with h | h | h
          · rcases List.mem_cons.1 h with h | h
            · exact .inr (.inr (by rw [hnames, List.filter_cons_of_pos hf]; exact List.mem_cons.2 (.inl h)))
            · exact .inl h
          · exact .inr (.inl h)
          · exact .inr (.inr (by rw [hnames, List.filter_cons_of_pos hf]; exact List.mem_cons_of_mem _ h))
      · intro h
        constructor
        · intro u hu
          rcases h [] f fs rfl hf u hu with h | h | h
          · exact List.mem_cons_of_mem _ (List.mem_cons_of_mem _ h)
          · exact List.mem_cons.2 (.inl h)
          · cases h
        · intro a g b e hg u hu
          rcases h (f :: a) g b (by rw [e]; rfl) hg u hu with h | h | h
          · exact .inl (List.mem_cons_of_mem _ h)
          · exact .inr (.inl h)
          · rw [hnames, List.filter_cons_of_pos hf] at h
            rcases List.mem_cons.1 h with h | h
            · exact .inl (List.mem_cons.2 (.inl h))
            · exact .inr (.inr h)
    · rw [if_neg hf, ih]
      constructor
      · intro h a g b e hg u hu
        cases a with
        | nil => cases e; exact absurd hg hf
        | cons x a =>
          cases e
          rcases h a g b rfl hg u hu with h | h | h
          · exact .inl h
          · exact .inr (.inl h)
          · exact .inr (.inr (by rw [hnames, List.filter_cons_of_neg hf]; exact h))
      · intro h a g b e hg u hu
        rcases h (f :: a) g b (by rw [e]; rfl) hg u hu with h | h | h
        · exact .inl h
        · exact .inr (.inl h)
        · rw [hnames, List.filter_cons_of_neg hf] at h
          exact .inr (.inr h)

theorem names_helpers (fs : List Fn) (x : Str) : x ∈ names (helpers fs) ↔ x ∈ hnames fs := by
  induction fs with
  | nil => exact Iff.rfl
  | cons f fs ih =>
    rw [helpers]
    by_cases hf : f.comptime = true
    · rw [if_pos hf, hnames, List.filter_cons_of_pos hf]
      simp only [names, List.map_cons, List.mem_cons]
      rw [ih]
      simp [hnames]
    · rw [if_neg hf, ih, hnames, hnames, List.filter_cons_of_neg hf]

/-- The constants of a block. -/
def consts : List Node → List (Str × List Str)
  | [] => []
  | .const n us :: ns => (n, us) :: consts ns
  | .impl _ :: ns => consts ns
  | .stmt _ :: ns => consts ns

/-- Each constant uses what is known and constants before it. -/
def ConstsOk (k : List Str) (cs : List (Str × List Str)) : Prop :=
  ∀ a c b, cs = a ++ c :: b → ∀ u ∈ c.2, u ∈ k ∨ u ∈ a.map (·.1)

theorem consts_items (k : List Str) (ns : List Node) : Items k (nodeItems ns) ↔ ConstsOk k (consts ns) := by
  induction ns generalizing k with
  | nil =>
    simp only [nodeItems, Items, true_iff]
    intro a f b e
    cases a <;> cases e
  | cons n ns ih =>
    cases n with
    | const n us =>
      simp only [nodeItems, Items, consts]
      rw [ih]
      constructor
      · rintro ⟨h1, h2⟩ a c b e u hu
        cases a with
        | nil => cases e; exact .inl (h1 hu)
        | cons x a =>
          obtain ⟨rfl, e'⟩ := List.cons.inj e
          rcases h2 a c b e' u hu with h | h
          · rcases List.mem_cons.1 h with h | h
            · exact .inr (by rw [h]; exact List.mem_cons_self ..)
            · exact .inl h
          · exact .inr (List.mem_cons_of_mem _ h)
      · intro h
        constructor
        · intro u hu
          rcases h [] (n, us) _ rfl u hu with h | h
          · exact h
          · cases h
        · intro a c b e u hu
          rcases h ((n, us) :: a) c b (by rw [e]; rfl) u hu with h | h
          · exact .inl (List.mem_cons_of_mem _ h)
          · rcases List.mem_cons.1 h with h | h
            · exact .inl (by rw [h]; exact List.mem_cons_self ..)
            · exact .inr h
    | impl ms => exact ih k
    | stmt s => exact ih k

theorem names_consts (ns : List Node) : names (nodeItems ns) = (consts ns).map (·.1) := by
  induction ns with
  | nil => rfl
  | cons n ns ih =>
    cases n with
    | const n us => simp [nodeItems, names, consts, ih]
    | impl ms => exact ih
    | stmt s => exact ih

/-- Each statement uses what is known and what statements before it declare. -/
def StmtsOk (k : List Str) (ss : List Stmt) : Prop :=
  ∀ a s b, ss = a ++ s :: b → ∀ u ∈ s.uses, u ∈ k ∨ ∃ t ∈ a, t.decl = some u

theorem stmts_ok (k : List Str) (ss : List Stmt) : Stmts k ss ↔ StmtsOk k ss := by
  induction ss generalizing k with
  | nil =>
    simp only [Stmts, true_iff]
    intro a f b e
    cases a <;> cases e
  | cons s ss ih =>
    simp only [Stmts]
    rw [ih]
    constructor
    · rintro ⟨h1, h2⟩ a c b e u hu
      cases a with
      | nil => cases e; exact .inl (h1 hu)
      | cons x a =>
        cases e
        rcases h2 a c b rfl u hu with h | ⟨t, ht, h⟩
        · rcases List.mem_append.1 h with h | h
          · exact .inr ⟨s, List.mem_cons_self .., by simpa using h⟩
          · exact .inl h
        · exact .inr ⟨t, List.mem_cons_of_mem _ ht, h⟩
    · intro h
      constructor
      · intro u hu
        rcases h [] s ss rfl u hu with h | ⟨t, ht, -⟩
        · exact h
        · cases ht
      · intro a c b e u hu
        rcases h (s :: a) c b (by rw [e]; rfl) u hu with hk | ⟨t, ht, hd⟩
        · exact .inl (List.mem_append_right _ hk)
        · rcases List.mem_cons.1 ht with rfl | ht
          · exact .inl (List.mem_append_left _ (by simpa using hd))
          · exact .inr ⟨t, ht, hd⟩

/-- **Which blocks compile.**  The program of a block compiles exactly when its constants use constants before them, each
`@comptime` function parsed before the block uses itself, the constants of the block and `@comptime` functions parsed
*later*, and the statements use the constants, the `@comptime` functions and variables declared before. -/
theorem valid_iff (base : List Str) (parsed : List Fn) (ns : List Node) : Valid base (program parsed ns) ↔
    ConstsOk base (consts ns) ∧ HelpersOk ((consts ns).map (·.1) ++ base) parsed ∧
      StmtsOk ((consts ns).map (·.1) ++ hnames parsed ++ base) (nodeStmts ns) := by
  have hm : ∀ (k k' : List Str) ss, (∀ x, x ∈ k ↔ x ∈ k') → (StmtsOk k ss ↔ StmtsOk k' ss) := by
    intro k k' ss h
    unfold StmtsOk
    simp only [h]
  unfold Valid program
  simp only
  rw [items_append, consts_items, names_consts, helpers_items, stmts_ok, names_append, names_consts, and_assoc]
  refine and_congr_right fun _ => and_congr ?_ (hm _ _ _ fun x => ?_)
  · unfold HelpersOk
    simp only [List.mem_append, List.mem_reverse]
  · simp only [List.mem_append, names_helpers]

/-- **A block is replaced by what it prints.**  Where the program of the block compiles, what takes the place of the
block is what its statements print, in their order, each on the state the one before has left; if one of them ends the
program with an error, compiling fails. -/
theorem block_printed {σ : Type} (step : Stmt → σ → σ × Str × Option Nat) (x : σ) (base : List Str) (parsed : List Fn)
    (ns : List Node) (compiles : Prog → Bool) (hcc : ∀ p, Valid base p → compiles p = true)
    (hv : Valid base (program parsed ns)) :
    run compiles (perform step x) (program parsed ns) =
      if (perform step x (nodeStmts ns)).2 = 0 then .source (perform step x (nodeStmts ns)).1 else .failed := by
  unfold run
  rw [if_pos (hcc _ hv)]
  rfl

/-- **`main` has the statements of the block, all of them and in their order**, wherever constants and methods stand
between them. -/
theorem main_statements (parsed : List Fn) (ns : List Node) :
    (program parsed ns).main = ns.filterMap fun n => match n with | .stmt s => some s | _ => none := by
  show nodeStmts ns = _
  induction ns with
  | nil => rfl
  | cons n ns ih => cases n <;> simp [nodeStmts, ih]

/-- Output of statements that print a text each is the texts one after the other. -/
theorem printed_texts {σ : Type} (step : Stmt → σ → σ × Str × Option Nat) (text : Stmt → Str) (ss : List Stmt)
    (h : ∀ s ∈ ss, ∀ x, ∃ y, step s x = (y, text s, none)) (x : σ) : perform step x ss = (ss.flatMap text, 0) := by
  induction ss generalizing x with
  | nil => rfl
  | cons s ss ih =>
    obtain ⟨y, e⟩ := h s (List.mem_cons_self ..) x
    rw [perform, e]
    simp only
    rw [ih (fun t ht => h t (List.mem_cons_of_mem _ ht)) y]
    simp

/-- **An error stops the compiler**, whatever was printed before it. -/
theorem error_stops {σ : Type} (step : Stmt → σ → σ × Str × Option Nat) (text : Stmt → Str) {a b : List Stmt} {s : Stmt}
    (ha : ∀ t ∈ a, ∀ x, ∃ y, step t x = (y, text t, none)) {c : Nat} (hc : c ≠ 0)
    (hs : ∀ x, ∃ y o, step s x = (y, o, some c)) (x : σ) (compiles : Prog → Bool) (is : List Item) :
    run compiles (perform step x) ⟨is, a ++ s :: b⟩ = .failed := by
  have : ∀ x, (perform step x (a ++ s :: b)).2 = c := by
    induction a with
    | nil =>
      intro x
      obtain ⟨y, o, e⟩ := hs x
      rw [List.nil_append, perform, e]
    | cons t a ih =>
      intro x
      obtain ⟨y, e⟩ := ha t (List.mem_cons_self ..) x
      rw [List.cons_append, perform, e]
      exact ih (fun u hu => ha u (List.mem_cons_of_mem _ hu)) y
  unfold run
  split
  · simp only
    rw [if_neg (by rw [this x]; exact hc)]
  · rfl

/-- A block with a constant, a variable and a call of a helper compiles. -/
example : Valid ["yield".toList] (program [⟨"f".toList, ["yield".toList], true⟩, ⟨"main".toList, ["printf".toList], false⟩]
    [.stmt ⟨some "x".toList, ["N".toList]⟩, .const "N".toList [], .stmt ⟨none, ["f".toList, "x".toList]⟩]) := by
  simp [Valid, program, nodeItems, nodeStmts, helpers, Items, names, Stmts]

/-! ## Where it does not -/

/-- **A helper cannot call a helper above it**: a `@comptime` function that calls a function above it, `@comptime` or not, makes
every block behind them fail. -/
theorem helper_violated {base : List Str} {f g : Fn} (hg : g.comptime = true) (hu : f.name ∈ g.uses)
    (hne : g.name ≠ f.name) (hb : f.name ∉ base) {ns : List Node} (hc : f.name ∉ (consts ns).map (·.1)) {a b c : List Fn}
    (ha : f.name ∉ hnames a) : ¬ Valid base (program (a ++ g :: (b ++ f :: c)) ns) := by
  intro h
  obtain ⟨-, h2, -⟩ := (valid_iff ..).1 h
  rcases h2 a g _ rfl hg _ hu with h | h | h
  · rcases List.mem_append.1 h with h | h
    · exact hc h
    · exact hb h
  · exact hne h.symm
  · exact ha h

/-- `@comptime fn sq...` and below it `@comptime fn quad...` with a call of `sq`: a block with no statement fails. -/
example : ¬ Valid ["yield".toList] (program [⟨"quad".toList, ["sq".toList], true⟩, ⟨"sq".toList, [], true⟩] []) :=
  helper_violated (f := ⟨"sq".toList, [], true⟩) (g := ⟨"quad".toList, ["sq".toList], true⟩) (a := []) (b := []) (c := [])
    rfl (by simp) (by decide +kernel) (by decide +kernel) (by decide +kernel) (by decide +kernel)

/-- **A helper below a block is unknown to it**, although functions may be used above their definition elsewhere. -/
theorem below_violated {base : List Str} {parsed : List Fn} {ns : List Node} {s : Stmt} {a b : List Stmt} {f : Str}
    (hs : nodeStmts ns = a ++ s :: b) (hu : f ∈ s.uses) (hb : f ∉ base) (hc : f ∉ (consts ns).map (·.1))
    (hp : f ∉ hnames parsed) (hd : ∀ t ∈ a, t.decl ≠ some f) : ¬ Valid base (program parsed ns) := by
  intro h
  obtain ⟨-, -, h3⟩ := (valid_iff ..).1 h
  rcases h3 a s b hs f hu with h | ⟨t, ht, h⟩
  · simp only [List.mem_append] at h
    rcases h with (h | h) | h
    · exact hc h
    · exact hp h
    · exact hb h
  · exact hd t ht h

/-- **Methods of a block are left out**: a block whose statements call a method of its own `impl` fails. -/
theorem impl_violated {base : List Str} {parsed : List Fn} {m : Str} (hb : m ∉ base) (hp : m ∉ hnames parsed) :
    ¬ Valid base (program parsed [.impl [m], .stmt ⟨none, [m]⟩]) :=
  below_violated (a := []) (b := []) rfl (List.mem_cons_self ..) hb (by simp [consts]) hp (fun _ h => nomatch h)

end Verif.Comptime
