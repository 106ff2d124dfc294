import Verif.DeferIt.Model

/-!
# C176: the `defer` that belongs to a declaration acts on the declared variable
-/

namespace Verif.DeferIt

open Spec

mutual

/-- Where `it` does not occur, its meaning does not matter. -/
theorem eval_noIt {V : Type} (w : World V) (env : String → V) (x : String) :
    ∀ e, ¬ HasIt e → eval w (withIt env x) e = eval w env e
  | .var n, h => by
      have h : n ≠ "it" := h
      simp [eval, withIt, h]
  | .num _, _ => rfl
  | .str _, _ => rfl
  | .call f args, h => by
      simp only [HasIt, not_or] at h
      simp only [eval, eval_noIt w env x f h.1, evalAll_noIt w env x args h.2]
  | .member e _, h => by
      simp only [HasIt] at h
      simp only [eval, eval_noIt w env x e h]
  | .bin _ l r, h => by
      simp only [HasIt, not_or] at h
      simp only [eval, eval_noIt w env x l h.1, eval_noIt w env x r h.2]
  | .un _ e, h => by
      simp only [HasIt] at h
      simp only [eval, eval_noIt w env x e h]
  | .index e i, h => by
      simp only [HasIt, not_or] at h
      simp only [eval, eval_noIt w env x e h.1, eval_noIt w env x i h.2]
  | .cast _ e, h => by
      simp only [HasIt] at h
      simp only [eval, eval_noIt w env x e h]
  | .tern c t e, h => by
      simp only [HasIt, not_or] at h
      simp only [eval, eval_noIt w env x c h.1, eval_noIt w env x t h.2.1, eval_noIt w env x e h.2.2]
  | .other _ ps, h => by
      simp only [HasIt] at h
      simp only [eval, evalAll_noIt w env x ps h]

theorem evalAll_noIt {V : Type} (w : World V) (env : String → V) (x : String) :
    ∀ es, ¬ HasItAny es → evalAll w (withIt env x) es = evalAll w env es
  | [], _ => rfl
  | e :: es, h => by
      simp only [HasItAny, not_or] at h
      simp only [evalAll, eval_noIt w env x e h.1, evalAll_noIt w env x es h.2]

end

mutual

/-- C176: the replaced expression does what the written one does where `it` means the declared
variable, whatever the operators mean. -/
theorem replace_eval {V : Type} (w : World V) (env : String → V) (x : String) :
    ∀ e, Plain e → eval w env (replace x e) = eval w (withIt env x) e
  | .var n, _ => by
      by_cases h : n = "it" <;> simp [replace, eval, withIt, h]
  | .num _, _ => rfl
  | .str _, _ => rfl
  | .call f args, h => by
      simp only [Plain] at h
      simp only [replace, eval, replace_eval w env x f h.1, replaceAll_eval w env x args h.2]
  | .member e _, h => by
      simp only [Plain] at h
      simp only [replace, eval, replace_eval w env x e h]
  | .bin _ l r, h => by
      simp only [Plain] at h
      simp only [replace, eval, replace_eval w env x l h.1, replace_eval w env x r h.2]
  | .un _ e, h => by
      simp only [Plain] at h
      simp only [replace, eval, replace_eval w env x e h]
  | .index e i, h => by
      simp only [Plain] at h
      rw [eval_noIt w env x _ (by simp only [HasIt, not_or]; exact h)]
      rfl
  | .cast ty e, h => by
      simp only [Plain] at h
      rw [eval_noIt w env x _ (by simp only [HasIt]; exact h)]
      rfl
  | .tern c t e, h => by
      simp only [Plain] at h
      rw [eval_noIt w env x _ (by simp only [HasIt, not_or]; exact h)]
      rfl
  | .other k ps, h => by
      simp only [Plain] at h
      rw [eval_noIt w env x _ (by simp only [HasIt]; exact h)]
      rfl

theorem replaceAll_eval {V : Type} (w : World V) (env : String → V) (x : String) :
    ∀ es, PlainAll es → evalAll w env (replaceAll x es) = evalAll w (withIt env x) es
  | [], _ => rfl
  | e :: es, h => by
      simp only [PlainAll] at h
      simp only [replaceAll, evalAll, replace_eval w env x e h.1, replaceAll_eval w env x es h.2]

end

mutual

/-- An expression without `it` is plain. -/
theorem plain_of_noIt : ∀ e, ¬ HasIt e → Plain e
  | .var _, _ => by simp only [Plain]
  | .num _, _ => by simp only [Plain]
  | .str _, _ => by simp only [Plain]
  | .call f args, h => by
      simp only [HasIt, not_or] at h
      simp only [Plain]
      exact ⟨plain_of_noIt f h.1, plainAll_of_noIt args h.2⟩
  | .member e _, h => by
      simp only [HasIt] at h
      simp only [Plain]
      exact plain_of_noIt e h
  | .bin _ l r, h => by
      simp only [HasIt, not_or] at h
      simp only [Plain]
      exact ⟨plain_of_noIt l h.1, plain_of_noIt r h.2⟩
  | .un _ e, h => by
      simp only [HasIt] at h
      simp only [Plain]
      exact plain_of_noIt e h
  | .index e i, h => by simpa only [HasIt, not_or, Plain] using h
  | .cast _ e, h => by simpa only [HasIt, Plain] using h
  | .tern c t e, h => by simpa only [HasIt, not_or, Plain] using h
  | .other _ ps, h => by simpa only [HasIt, Plain] using h

theorem plainAll_of_noIt : ∀ es, ¬ HasItAny es → PlainAll es
  | [], _ => by simp only [PlainAll]
  | e :: es, h => by
      simp only [HasItAny, not_or] at h
      simp only [PlainAll]
      exact ⟨plain_of_noIt e h.1, plainAll_of_noIt es h.2⟩

end

theorem own_of_not_str {V : Type} (w : World V) (env : String → V) (e : Ex)
    (h : ∀ s, e ≠ .str s) : own w env e = acts (eval w env e).2 := by
  cases e <;> first | rfl | exact absurd rfl (h _)

theorem deferStmt_done {V : Type} (w : World V) (env : String → V) (e : Ex) (ss : List St) :
    done w env (deferStmt e :: ss) = own w env e :: done w env ss := by
  cases e <;> rfl

theorem stmt_done {V : Type} (w : World V) (env : String → V) (e : Ex) (ss : List St) :
    done w env (stmt e :: ss) = done w env ss := by
  cases e <;> rfl

/-- C176 (partial).  The deferred actions of a block are those written, in every environment and
for every meaning of the operators: a `defer` directly after a declaration acts on the declared
variable, any other is a statement of its own.  Missing, because it fails: `it` below an index, a
cast, a conditional or an initialiser, a deferred string after a declaration, and a variable called
`it` in the `defer` after the semicolon of a declaration. -/
theorem block_partial {V : Type} (w : World V) (env : String → V) :
    ∀ is, Fine is → done w env (parse is) = written w env is := by
  intro is
  induction is using parse.induct with
  | case1 => intro _; rfl
  | case2 x e d is ih =>
    intro h
    rw [Fine] at h
    obtain ⟨⟨h1, h2⟩, h3⟩ := h
    simp only [parse, done, written, ih h3, own_of_not_str w env d h2]
    rw [replace_eval w env x d (plain_of_noIt d h1), eval_noIt w env x d h1]
  | case3 x e d is ih =>
    intro h
    rw [Fine] at h
    obtain ⟨⟨h1, h2⟩, h3⟩ := h
    simp only [parse, done, written, ih h3, attached, own_of_not_str w _ d h2]
    rw [replace_eval w env x d h1]
  | case4 x e is h1 h2 ih =>
    intro h
    rw [Fine] at h
    · rw [parse]
      · rw [done, written, ih h]
        exact h2
      · exact h1
      · exact h2
    · intro _ _ d is' _ hi; exact h1 d is' hi
    · intro _ _ d is' _ hi; exact h2 d is' hi
  | case5 is ih =>
    intro h
    rw [Fine] at h
    · rw [parse, written, ih h]
    all_goals (intros; simp_all)
  | case6 d is ih =>
    intro h
    rw [Fine] at h
    · rw [parse, deferStmt_done, written, ih h]
    all_goals (intros; simp_all)
  | case7 b is ih =>
    intro h
    rw [Fine] at h
    · rw [parse, done, written, ih h]
    all_goals (intros; simp_all)
  | case8 e is ih =>
    intro h
    rw [Fine] at h
    · rw [parse, stmt_done, written, ih h]
    all_goals (intros; simp_all)

/-- The declarations and `defer`s of a block in the order written, a `defer` being `none`. -/
def Spec.decls : List Item → List (Option (String × Ex))
  | [] => []
  | .decl x e :: is => some (x, e) :: decls is
  | .deferE _ :: is => none :: decls is
  | .deferB _ :: is => none :: decls is
  | _ :: is => decls is

/-- The same for a tree. -/
def Spec.treeDecls : List St → List (Option (String × Ex))
  | [] => []
  | .decl x e :: ss => some (x, e) :: treeDecls ss
  | .deferE _ :: ss => none :: treeDecls ss
  | .deferPrint _ :: ss => none :: treeDecls ss
  | .deferB _ :: ss => none :: treeDecls ss
  | _ :: ss => treeDecls ss

/-- Every declaration written is in the tree, unchanged, and no other; and each `defer` stands
where it is written among them. -/
theorem declarations_kept : ∀ is, treeDecls (parse is) = decls is := by
  intro is
  induction is using parse.induct with
  | case1 => rfl
  | case2 x e d is ih => simp only [parse, treeDecls, decls, ih]
  | case3 x e d is ih => simp only [parse, treeDecls, decls, ih]
  | case4 x e is h1 h2 ih =>
    rw [parse]
    · simp only [treeDecls, decls, ih]
    · exact h1
    · exact h2
  | case5 is ih => simp only [parse, decls, ih]
  | case6 d is ih => cases d <;> simp only [parse, deferStmt, treeDecls, decls, ih]
  | case7 b is ih => simp only [parse, treeDecls, decls, ih]
  | case8 e is ih => cases e <;> simp only [parse, stmt, treeDecls, decls, ih]

/-! ## A case that meets the hypotheses -/

/-- `let f = open("a") defer close(&it, n); let g = 1; defer { use(it); } defer use(it);` -/
def sample : List Item :=
  [.decl "f" (.call (.var "open") [.str "a"]),
   .deferE (.call (.var "close") [.un "&" (.var "it"), .index (.var "n") (.num 0)]), .semi,
   .decl "g" (.num 1), .semi, .deferB [.call (.var "use") [.var "it"]],
   .deferE (.call (.var "use") [.var "it"]), .semi]

/-- The block meets the hypotheses, and the three deferred actions are those written. -/
theorem sample_fine : Fine sample := by
  simp [sample, Fine, Plain, PlainAll, HasIt]

example {V : Type} (w : World V) (env : String → V) :
    done w env (parse sample) =
      [[.call (env "close") [w.un "&" (env "f"), w.index (env "n") (w.num 0)]],
       [.call (env "use") [env "it"]], [.call (env "use") [env "it"]]] := by
  rw [block_partial w env sample sample_fine]
  simp [sample, written, attached, own, acts, eval, evalAll, withIt]

/-! ## Where the full statement fails -/

/-- A variable called `it` is taken for the variable declared just before, although a semicolon
ends the declaration: `let y = v; defer g(it);` calls `g(y)`. -/
theorem own_it_violated {V : Type} (w : World V) (env : String → V) (y g : String) (v : Ex)
    (hg : g ≠ "it") (h : env y ≠ env "it") :
    done w env (parse [.decl y v, .semi, .deferE (.call (.var g) [.var "it"]), .semi]) =
        [[.call (env g) [env y]]] ∧
      done w env (parse [.decl y v, .semi, .deferE (.call (.var g) [.var "it"]), .semi]) ≠
        written w env [.decl y v, .semi, .deferE (.call (.var g) [.var "it"]), .semi] := by
  have h1 : done w env (parse [.decl y v, .semi, .deferE (.call (.var g) [.var "it"]), .semi]) =
      [[.call (env g) [env y]]] := by
    simp [parse, replace, replaceAll, done, eval, evalAll, acts, hg]
  refine ⟨h1, ?_⟩
  rw [h1]
  simp [written, own, eval, evalAll, acts, h]

/-- The same `defer` with any other statement in between means the variable `it`. -/
theorem own_it_apart {V : Type} (w : World V) (env : String → V) (y g : String) (v e : Ex) :
    done w env (parse [.decl y v, .semi, .expr e, .semi,
      .deferE (.call (.var g) [.var "it"]), .semi]) = [[.call (env g) [env "it"]]] := by
  have : done w env (parse [.decl y v, .semi, .expr e, .semi,
      .deferE (.call (.var g) [.var "it"]), .semi]) =
      done w env (stmt e :: [.deferE (.call (.var g) [.var "it"])]) := by
    simp [parse, deferStmt, done]
  rw [this, stmt_done]
  simp [done, eval, evalAll, acts]

/-- `it` below an index, a cast, a conditional or an initialiser is not replaced: the deferred
call gets the variable `it` (in C an undeclared name, or one from outside). -/
theorem hidden_it_violated {V : Type} (w : World V) (env : String → V) (x g : String) (v : Ex)
    (hg : g ≠ "it") :
    (∀ i, done w env (parse [.decl x v, .deferE (.call (.var g) [.index (.var "it") (.num i)])]) =
      [[.call (env g) [w.index (env "it") (w.num i)]]]) ∧
    (∀ ty, done w env (parse [.decl x v, .deferE (.call (.var g) [.cast ty (.var "it")])]) =
      [[.call (env g) [w.cast ty (env "it")]]]) ∧
    (∀ k, done w env (parse [.decl x v, .deferE (.call (.var g) [.other k [.var "it"]])]) =
      [[.call (env g) [w.other k [env "it"]]]]) ∧
    (done w env (parse [.decl x v,
        .deferE (.call (.var g) [.tern (.var "it") (.num 0) (.num 1)])]) =
      [[.call (env g) [if w.truth (env "it") then w.num 0 else w.num 1]]]) ∧
    (∀ ty, written w env [.decl x v, .deferE (.call (.var g) [.cast ty (.var "it")])] =
      [[.call (env g) [w.cast ty (env x)]]]) := by
  refine ⟨fun i => ?_, fun ty => ?_, fun k => ?_, ?_, fun ty => ?_⟩
  case refine_4 =>
    cases h : w.truth (env "it") <;>
      simp [parse, replace, replaceAll, done, eval, evalAll, acts, hg, h]
  all_goals simp [parse, replace, replaceAll, done, eval, evalAll, acts, hg, written, attached, own,
    withIt]

/-- A deferred string is printed, but not after a declaration: `let y = v; defer "bye";` does
nothing. -/
theorem defer_string_violated {V : Type} (w : World V) (env : String → V) (y s : String) (v : Ex) :
    done w env (parse [.deferE (.str s), .semi]) = [[.print s]] ∧
    done w env (parse [.decl y v, .semi, .deferE (.str s), .semi]) = [[]] ∧
    written w env [.decl y v, .semi, .deferE (.str s), .semi] = [[.print s]] := by
  simp [parse, replace, deferStmt, done, eval, acts, written, own]

end Verif.DeferIt
