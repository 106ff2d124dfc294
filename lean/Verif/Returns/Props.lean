import Verif.Returns.Model

/-! # C25: bodies accepted by the flow check return -/

namespace Verif.Returns

open Spec

/-! ## What executions can end with -/

/-- A jump that no label catches does not leave a list without `goto`. -/
def Loc (o : Out) : Prop := ∀ l, o ≠ .jump l

theorem loop_inv {h : Bool} {P : Out → Prop} {b : Stmt} (hn : P .normal)
    (hr : Exec h b .ret → P .ret) (hj : ∀ l, Exec h b (.jump l) → P (.jump l)) :
    ∀ o, Exec h (.loop b) o → P o := by
  intro o he
  generalize hs : Stmt.loop b = s at he
  induction he using Exec.rec (motive_2 := fun _ _ _ => True) (motive_3 := fun _ _ _ => True)
  all_goals first
    | trivial
    | (cases hs; done)
    | skip
  case loopNext ih => exact ih hs
  case loopCont ih => exact ih hs
  case loopRet h1 _ => injection hs with hs; subst hs; exact hr h1
  case loopJump h1 _ => injection hs with hs; subst hs; exact hj _ h1

mutual
/-- Without `goto`, nothing jumps. -/
theorem no_jump (h : Bool) : ∀ (s : Stmt), noGoto s = true → ∀ o, Exec h s o → Loc o
  | .ret, _, _, he => by cases he; intro l; simp
  | .simple, _, _, he => by cases he; intro l; simp
  | .brk, _, _, he => by cases he; intro l; simp
  | .cont, _, _, he => by cases he; intro l; simp
  | .goto _, hg, _, _ => by simp [noGoto] at hg
  | .label _, _, _, he => by cases he; intro l; simp
  | .block b, hg, o, he => by
      have hg' : noGotoL b = true := by simpa [noGoto] using hg
      cases he with
      | block _ _ h1 _ => exact no_jumpL h b hg' o h1
      | blockJump _ l _ _ h1 _ _ _ => exact absurd rfl (no_jumpL h b hg' _ h1 l)
  | .ite t e, hg, o, he => by
      have hg' : noGoto t = true ∧ noGoto e = true := by simpa [noGoto] using hg
      cases he with
      | iteT _ _ _ h1 => exact no_jump h t hg'.1 o h1
      | iteE _ _ _ h1 => exact no_jump h e hg'.2 o h1
  | .cond1 b, hg, o, he => by
      cases he with
      | cond1T _ _ h1 => exact no_jump h b (by simpa [noGoto] using hg) o h1
      | cond1F => intro l; simp
  | .ifOnly b, hg, o, he => by
      cases he with
      | ifT _ _ h1 => exact no_jump h b (by simpa [noGoto] using hg) o h1
      | ifF => intro l; simp
  | .mtch a, hg, o, he => by
      cases he with
      | mtch _ _ h1 => exact no_jumpA h a (by simpa [noGoto] using hg) o h1
  | .loop b, hg, o, he => by
      have hb := no_jump h b (by simpa [noGoto] using hg)
      exact loop_inv (P := Loc) (by intro l; simp) (fun _ l => by simp)
        (fun l h1 => absurd rfl (hb _ h1 l)) o he
theorem no_jumpL (h : Bool) : ∀ (b : Stmts), noGotoL b = true → ∀ o, ExecL h b o → Loc o
  | .nil, _, _, he => by cases he; intro l; simp
  | .cons s r, hg, o, he => by
      have hg' : noGoto s = true ∧ noGotoL r = true := by simpa [noGotoL] using hg
      cases he with
      | next _ _ _ _ h2 => exact no_jumpL h r hg'.2 o h2
      | stop _ _ _ h1 _ => exact no_jump h s hg'.1 o h1
theorem no_jumpA (h : Bool) : ∀ (a : Arms), noGotoA a = true → ∀ o, ExecA h a o → Loc o
  | .nil, _, _, he => by cases he; intro l; simp
  | .cons _ _ b r, hg, o, he => by
      have hg' : noGoto b = true ∧ noGotoA r = true := by simpa [noGotoA] using hg
      cases he with
      | take _ _ _ _ _ h1 => exact no_jump h b hg'.1 o h1
      | skip _ _ _ _ _ _ h1 => exact no_jumpA h r hg'.2 o h1
end

/-- Neither `break` nor `continue`. -/
def Stay (o : Out) : Prop := o ≠ .brk ∧ o ≠ .cont

mutual
/-- Outside of loops nothing breaks. -/
theorem no_exit (h : Bool) : ∀ (s : Stmt), exitsInLoops s = true → noGoto s = true →
    ∀ o, Exec h s o → Stay o
  | .ret, _, _, _, he => by cases he; simp [Stay]
  | .simple, _, _, _, he => by cases he; simp [Stay]
  | .brk, hx, _, _, _ => by simp [exitsInLoops] at hx
  | .cont, hx, _, _, _ => by simp [exitsInLoops] at hx
  | .goto _, _, hg, _, _ => by simp [noGoto] at hg
  | .label _, _, _, _, he => by cases he; simp [Stay]
  | .block b, hx, hg, o, he => by
      have hg' : noGotoL b = true := by simpa [noGoto] using hg
      cases he with
      | block _ _ h1 _ => exact no_exitL h b (by simpa [exitsInLoops] using hx) hg' o h1
      | blockJump _ l _ _ h1 _ _ _ => exact absurd rfl (no_jumpL h b hg' _ h1 l)
  | .ite t e, hx, hg, o, he => by
      have hg' : noGoto t = true ∧ noGoto e = true := by simpa [noGoto] using hg
      have hx' : exitsInLoops t = true ∧ exitsInLoops e = true := by simpa [exitsInLoops] using hx
      cases he with
      | iteT _ _ _ h1 => exact no_exit h t hx'.1 hg'.1 o h1
      | iteE _ _ _ h1 => exact no_exit h e hx'.2 hg'.2 o h1
  | .cond1 b, hx, hg, o, he => by
      cases he with
      | cond1T _ _ h1 => exact no_exit h b (by simpa [exitsInLoops] using hx) (by simpa [noGoto] using hg) o h1
      | cond1F => simp [Stay]
  | .ifOnly b, hx, hg, o, he => by
      cases he with
      | ifT _ _ h1 => exact no_exit h b (by simpa [exitsInLoops] using hx) (by simpa [noGoto] using hg) o h1
      | ifF => simp [Stay]
  | .mtch a, hx, hg, o, he => by
      cases he with
      | mtch _ _ h1 => exact no_exitA h a (by simpa [exitsInLoops] using hx) (by simpa [noGoto] using hg) o h1
  | .loop b, _, _, o, he => by
      exact loop_inv (P := Stay) (by simp [Stay]) (fun _ => by simp [Stay]) (fun l _ => by simp [Stay]) o he
theorem no_exitL (h : Bool) : ∀ (b : Stmts), exitsInLoopsL b = true → noGotoL b = true →
    ∀ o, ExecL h b o → Stay o
  | .nil, _, _, _, he => by cases he; simp [Stay]
  | .cons s r, hx, hg, o, he => by
      have hg' : noGoto s = true ∧ noGotoL r = true := by simpa [noGotoL] using hg
      have hx' : exitsInLoops s = true ∧ exitsInLoopsL r = true := by simpa [exitsInLoopsL] using hx
      cases he with
      | next _ _ _ _ h2 => exact no_exitL h r hx'.2 hg'.2 o h2
      | stop _ _ _ h1 _ => exact no_exit h s hx'.1 hg'.1 o h1
theorem no_exitA (h : Bool) : ∀ (a : Arms), exitsInLoopsA a = true → noGotoA a = true →
    ∀ o, ExecA h a o → Stay o
  | .nil, _, _, _, he => by cases he; simp [Stay]
  | .cons _ _ b r, hx, hg, o, he => by
      have hg' : noGoto b = true ∧ noGotoA r = true := by simpa [noGotoA] using hg
      have hx' : exitsInLoops b = true ∧ exitsInLoopsA r = true := by simpa [exitsInLoopsA] using hx
      cases he with
      | take _ _ _ _ _ h1 => exact no_exit h b hx'.1 hg'.1 o h1
      | skip _ _ _ _ _ _ h1 => exact no_exitA h r hx'.2 hg'.2 o h1
end

mutual
/-- A statement the check accepts does not end normally. -/
theorem always_sound : ∀ (s : Stmt), stmtAlways s = true → noGoto s = true →
    ∀ o, Exec false s o → o ≠ .normal
  | .ret, _, _, _, he => by cases he; simp
  | .simple, ha, _, _, _ => by simp [stmtAlways] at ha
  | .brk, ha, _, _, _ => by simp [stmtAlways] at ha
  | .cont, ha, _, _, _ => by simp [stmtAlways] at ha
  | .goto _, ha, _, _, _ => by simp [stmtAlways] at ha
  | .label _, ha, _, _, _ => by simp [stmtAlways] at ha
  | .block b, ha, hg, o, he => by
      have hg' : noGotoL b = true := by simpa [noGoto] using hg
      cases he with
      | block _ _ h1 _ => exact always_soundL b (by simpa [stmtAlways] using ha) hg' o h1
      | blockJump _ l _ _ h1 _ _ _ => exact absurd rfl (no_jumpL false b hg' _ h1 l)
  | .ite t e, ha, hg, o, he => by
      have hg' : noGoto t = true ∧ noGoto e = true := by simpa [noGoto] using hg
      have ha' : stmtAlways t = true ∧ stmtAlways e = true := by simpa [stmtAlways] using ha
      cases he with
      | iteT _ _ _ h1 => exact always_sound t ha'.1 hg'.1 o h1
      | iteE _ _ _ h1 => exact always_sound e ha'.2 hg'.2 o h1
  | .cond1 _, ha, _, _, _ => by simp [stmtAlways] at ha
  | .ifOnly _, ha, _, _, _ => by simp [stmtAlways] at ha
  | .mtch a, ha, hg, o, he => by
      have ha' : armsAlways a = true ∧ hasDefault a = true := by simpa [stmtAlways] using ha
      cases he with
      | mtch _ _ h1 => exact always_soundA a ha'.1 ha'.2 (by simpa [noGoto] using hg) o h1
  | .loop _, ha, _, _, _ => by simp [stmtAlways] at ha
theorem always_soundL : ∀ (b : Stmts), blockAlways b = true → noGotoL b = true →
    ∀ o, ExecL false b o → o ≠ .normal
  | .nil, ha, _, _, _ => by simp [blockAlways] at ha
  | .cons s r, ha, hg, o, he => by
      have hg' : noGoto s = true ∧ noGotoL r = true := by simpa [noGotoL] using hg
      cases he with
      | next _ _ _ h1 h2 =>
        by_cases hs : stmtAlways s = true
        · exact absurd rfl (always_sound s hs hg'.1 _ h1)
        · exact always_soundL r (by simpa [blockAlways, hs] using ha) hg'.2 o h2
      | stop _ _ _ _ h2 => exact h2
theorem always_soundA : ∀ (a : Arms), armsAlways a = true → hasDefault a = true → noGotoA a = true →
    ∀ o, ExecA false a o → o ≠ .normal
  | .nil, _, hd, _, _, _ => by simp [hasDefault] at hd
  | .cons d _ b r, ha, hd, hg, o, he => by
      have ha' : stmtAlways b = true ∧ armsAlways r = true := by simpa [armsAlways] using ha
      have hg' : noGoto b = true ∧ noGotoA r = true := by simpa [noGotoA] using hg
      cases he with
      | take _ _ _ _ _ h2 => exact always_sound b ha'.1 hg'.1 o h2
      | skip _ _ _ _ _ hk h2 =>
        refine always_soundA r ha'.2 ?_ hg'.2 o h2
        cases d with
        | true => exact absurd (hk rfl).1 (by simp)
        | false => simpa [hasDefault] using hd
end

/-- C25.  A body without `goto` that the check accepts ends every execution of the emitted
code that ends with a `return`: it never falls off the end. -/
theorem accepted_returns_partial (b : Stmts) (ha : blockAlways b = true)
    (hg : noGoto (.block b) = true) (hx : exitsInLoops (.block b) = true) (o : Out)
    (he : Exec false (.block b) o) : o = .ret := by
  have h1 := always_sound (.block b) (by simpa [stmtAlways] using ha) hg o he
  have h2 := no_jump false _ hg o he
  have h3 := no_exit false _ hx hg o he
  cases o with
  | normal => exact absurd rfl h1
  | ret => rfl
  | brk => exact absurd rfl h3.1
  | cont => exact absurd rfl h3.2
  | jump l => exact absurd rfl (h2 l)

/-- C25 fails with `goto`: `if c { goto end; } return 1; end: f();` is accepted and falls
off the end. -/
theorem goto_violated :
    blockAlways (.cons (.ifOnly (.block (.cons (.goto "end") .nil))) (.cons .ret
      (.cons (.label "end") (.cons .simple .nil)))) = true ∧
    Exec false (.block (.cons (.ifOnly (.block (.cons (.goto "end") .nil))) (.cons .ret
      (.cons (.label "end") (.cons .simple .nil))))) .normal := by
  refine ⟨by simp [blockAlways, stmtAlways], ?_⟩
  refine .blockJump _ "end" _ _ (.stop _ _ _ (.ifT _ _ (.block _ _
    (.stop _ _ _ (.goto _) (by simp)) (by intro l h; rfl))) (by simp)) ?_
    (.next _ _ _ .simple .nil) (by simp)
  simp [afterLabel]

/-- C25 fails for the language as written, where an arm `_ if c` is taken only when `c`
holds: `match x { _ if c => return 1 }` is accepted.  (The emitted code ignores the guard.) -/
theorem guarded_default_violated :
    blockAlways (.cons (.mtch (.cons true true .ret .nil)) .nil) = true ∧
    Exec true (.block (.cons (.mtch (.cons true true .ret .nil)) .nil)) .normal := by
  refine ⟨by simp [blockAlways, stmtAlways, armsAlways, hasDefault], ?_⟩
  exact .block _ _ (.next _ _ _ (.mtch _ _ (.skip _ _ _ _ _ (by simp) .none)) .nil) (by simp)

/-! ## Concrete cases -/

/-- A loop, a conditional with one exit, and a match with default: accepted. -/
example : blockAlways (.cons (.loop (.block (.cons (.ifOnly (.block (.cons .brk .nil))) .nil)))
    (.cons (.mtch (.cons false false (.block (.cons .ret .nil)) (.cons true false
      (.ite (.block (.cons .ret .nil)) (.block (.cons .simple (.cons .ret .nil)))) .nil))) .nil)) = true ∧
    noGoto (.block (.cons (.loop (.block (.cons (.ifOnly (.block (.cons .brk .nil))) .nil)))
    (.cons (.mtch (.cons false false (.block (.cons .ret .nil)) (.cons true false
      (.ite (.block (.cons .ret .nil)) (.block (.cons .simple (.cons .ret .nil)))) .nil))) .nil))) = true ∧
    exitsInLoops (.block (.cons (.loop (.block (.cons (.ifOnly (.block (.cons .brk .nil))) .nil)))
    (.cons (.mtch (.cons false false (.block (.cons .ret .nil)) (.cons true false
      (.ite (.block (.cons .ret .nil)) (.block (.cons .simple (.cons .ret .nil)))) .nil))) .nil))) = true := by
  simp [blockAlways, stmtAlways, armsAlways, hasDefault, noGoto, noGotoL, noGotoA, exitsInLoops,
    exitsInLoopsL, exitsInLoopsA]

end Verif.Returns
