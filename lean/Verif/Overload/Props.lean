import Verif.Overload.Model

/-! # Operators of structs and strings: properties (C84) -/

namespace Verif.Overload

open Spec

theorem methodOf_doc {op m : String} (h : Documented op m) : methodOf op = some m := by
  cases h <;> decide

theorem unMethodOf_doc {op m : String} (h : DocumentedUn op m) : unMethodOf op = some m := by
  cases h <;> decide

theorem doc_methodOf {op m : String} (h : methodOf op = some m) : Documented op m := by
  unfold methodOf at h
  by_cases e : op = "+"
  · rw [if_pos e] at h; cases h; rw [e]; constructor
  rw [if_neg e] at h; clear e
  by_cases e : op = "-"
  · rw [if_pos e] at h; cases h; rw [e]; constructor
  rw [if_neg e] at h; clear e
  by_cases e : op = "*"
  · rw [if_pos e] at h; cases h; rw [e]; constructor
  rw [if_neg e] at h; clear e
  by_cases e : op = "/"
  · rw [if_pos e] at h; cases h; rw [e]; constructor
  rw [if_neg e] at h; clear e
  by_cases e : op = "%"
  · rw [if_pos e] at h; cases h; rw [e]; constructor
  rw [if_neg e] at h; clear e
  by_cases e : op = "=="
  · rw [if_pos e] at h; cases h; rw [e]; constructor
  rw [if_neg e] at h; clear e
  by_cases e : op = "!="
  · rw [if_pos e] at h; cases h; rw [e]; constructor
  rw [if_neg e] at h; clear e
  by_cases e : op = "<"
  · rw [if_pos e] at h; cases h; rw [e]; constructor
  rw [if_neg e] at h; clear e
  by_cases e : op = ">"
  · rw [if_pos e] at h; cases h; rw [e]; constructor
  rw [if_neg e] at h; clear e
  by_cases e : op = "<="
  · rw [if_pos e] at h; cases h; rw [e]; constructor
  rw [if_neg e] at h; clear e
  by_cases e : op = ">="
  · rw [if_pos e] at h; cases h; rw [e]; constructor
  rw [if_neg e] at h; clear e
  by_cases e : op = "&"
  · rw [if_pos e] at h; cases h; rw [e]; constructor
  rw [if_neg e] at h; clear e
  by_cases e : op = "|"
  · rw [if_pos e] at h; cases h; rw [e]; constructor
  rw [if_neg e] at h; clear e
  by_cases e : op = "^"
  · rw [if_pos e] at h; cases h; rw [e]; constructor
  rw [if_neg e] at h; clear e
  by_cases e : op = "<<"
  · rw [if_pos e] at h; cases h; rw [e]; constructor
  rw [if_neg e] at h; clear e
  by_cases e : op = ">>"
  · rw [if_pos e] at h; cases h; rw [e]; constructor
  rw [if_neg e] at h; clear e
  cases h

theorem findOp_has {F : Funcs} {s m : Name} {f : Fn} {g : Sig} (h : Has F s m f g) : findOp F s m = some (f, g) := by
  cases h with
  | own _ h => simp [findOp, h]
  | ofTrait _ h1 h2 => simp [findOp, h1, h2]

theorem findOp_none {F : Funcs} {s m : Name} (h : ∀ f g, ¬ Has F s m f g) : findOp F s m = none := by
  unfold findOp
  cases h1 : F (.own s m) with
  | some g => exact (h _ _ (.own g h1)).elim
  | none =>
    cases h2 : F (.ofTrait s m) with
    | some g => exact (h _ _ (.ofTrait g h1 h2)).elim
    | none => rfl

theorem has_F {F : Funcs} {s m : Name} {f : Fn} {g : Sig} (h : Has F s m f g) :
    F f = some g ∧ (selfTy f g = if g.selfPtr then .ptr s else .st s) := by
  cases h with
  | own _ h => exact ⟨h, rfl⟩
  | ofTrait _ _ h => exact ⟨h, rfl⟩

theorem cFits_self (t : Ty) : cFits t t = true := by simp [cFits]

/-- What is known of the translation of an expression that has a meaning. -/
structure Done (F : Funcs) (W : World) (e : Ex) (t : Ty) (v : V) (l : List Nat) : Prop where
  ty : (tr F e).2.1 = t
  val : v.ty = t
  eval : evalC F W (tr F e).1 = some (v, l)
  place : (tr F e).2.2 = .place → ∃ u i, (tr F e).1 = .leaf .place u i ∧ v = W.val i ∧ l = [i]

theorem ty_st {v : V} {s : Name} (h : v.ty = .st s) : ∃ d, v = .obj s d := by
  cases v with
  | obj r d => simp only [V.ty, Ty.st.injEq] at h; exact ⟨d, by rw [h]⟩
  | text c _ _ => cases c <;> cases h
  | _ => cases h

theorem ty_ptr {v : V} {s : Name} (h : v.ty = .ptr s) : ∃ a d, v = .ptr s a d := by
  cases v with
  | ptr r a d => simp only [V.ty, Ty.ptr.injEq] at h; exact ⟨a, d, by rw [h]⟩
  | text c _ _ => cases c <;> cases h
  | _ => cases h

/-- A struct where a pointer is expected. -/
theorem eval_ref {F : Funcs} {W : World} {e : Ex} {s : Name} {d : List Int} {l : List Nat} (h : Done F W e (.st s) (.obj s d) l)
    {k : Kind} (hk : (tr F e).2.2 = k) (f : Kind → C → C)
    (hf : f k (tr F e).1 = .rval (tr F e).1 ∨ (k = .place ∧ f k (tr F e).1 = .addr (tr F e).1)) :
    ∃ a, evalC F W (f k (tr F e).1) = some (.ptr s a d, l) := by
  rcases hf with hf | ⟨hp, hf⟩
  · rw [hf]
    exact ⟨-1, by simp only [evalC, h.eval]⟩
  · rw [hf]
    obtain ⟨u, i, h1, h2, h3⟩ := h.place (hk.trans hp)
    exact ⟨W.addr i, by simp only [h1, evalC, ← h2, h3]⟩

theorem ref_able {k : Kind} (h : Able k) (c : C) : ref k c = .rval c ∨ (k = .place ∧ ref k c = .addr c) := by
  cases k <;> simp_all [ref, Able]

theorem refEq_any (k : Kind) (c : C) : refEq k c = .rval c ∨ (k = .place ∧ refEq k c = .addr c) := by
  cases k <;> simp_all [refEq]

theorem refUn_able {k : Kind} (h : Able k) (h2 : k ≠ .init) (c : C) : refUn k c = .rval c ∨ (k = .place ∧ refUn k c = .addr c) := by
  cases k <;> simp_all [refUn, Able]

/-- The argument for `self`. -/
theorem eval_self {F : Funcs} {W : World} {e : Ex} {t : Ty} {v : V} {l : List Nat} (h : Done F W e t v l) {s : Name} {isPtr : Bool}
    (hs : structOf t = some (s, isPtr)) (sp : Bool) (f : Kind → C → C)
    (hf : sp = true → isPtr = false → f (tr F e).2.2 (tr F e).1 = .rval (tr F e).1 ∨ ((tr F e).2.2 = .place ∧ f (tr F e).2.2 (tr F e).1 = .addr (tr F e).1)) :
    ∃ w, evalC F W (if sp then (if isPtr then (tr F e).1 else f (tr F e).2.2 (tr F e).1) else (if isPtr then .deref (tr F e).1 else (tr F e).1)) = some (w, l) ∧
      w.ty = (if sp then .ptr s else .st s) ∧ w.strip = v.strip := by
  have hv := h.val
  cases t with
  | st r =>
    cases hs
    obtain ⟨d, rfl⟩ := ty_st hv
    cases sp with
    | false => exact ⟨_, h.eval, rfl, rfl⟩
    | true =>
      obtain ⟨a, ha⟩ := eval_ref h rfl f (hf rfl rfl)
      exact ⟨_, ha, rfl, rfl⟩
  | ptr r =>
    cases hs
    obtain ⟨a, d, rfl⟩ := ty_ptr hv
    cases sp with
    | false => exact ⟨.obj s d, by simp [evalC, h.eval], rfl, rfl⟩
    | true => exact ⟨_, h.eval, rfl, rfl⟩
  | _ => cases hs

/-- The other argument. -/
theorem eval_other {F : Funcs} {W : World} {e : Ex} {t : Ty} {v : V} {l : List Nat} (h : Done F W e t v l) {g : Sig}
    (hg : FitsOther g t (tr F e).2.2) :
    ∃ w, evalC F W (otherArg g t (tr F e).2.2 (tr F e).1) = some (w, l) ∧ w.ty = g.other ∧ w.strip = v.strip := by
  rcases hg with hg | ⟨s, h1, h2, h3⟩
  · refine ⟨v, ?_, by rw [h.val, hg], rfl⟩
    have : otherArg g t (tr F e).2.2 (tr F e).1 = (tr F e).1 := by
      unfold otherArg
      rw [hg]
      cases t <;> rfl
    rw [this, h.eval]
  · subst h2
    obtain ⟨d, rfl⟩ := ty_st h.val
    have : otherArg g (.st s) (tr F e).2.2 (tr F e).1 = ref (tr F e).2.2 (tr F e).1 := by
      unfold otherArg
      rw [h1]
    rw [this, h1]
    obtain ⟨a, ha⟩ := eval_ref h rfl ref (ref_able h3 _)
    exact ⟨_, ha, rfl, rfl⟩

theorem structOf_ty {t : Ty} {s : Name} (h : structTy t = some s) : ∃ b, structOf t = some (s, b) ∧ (b = true ↔ ∃ r, t = .ptr r) ∧ (b = false ↔ ∃ r, t = .st r) := by
  cases t with
  | st r => cases h; exact ⟨false, rfl, by simp, by simp⟩
  | ptr r => cases h; exact ⟨true, rfl, by simp, by simp⟩
  | _ => cases h

theorem any_ptr (t : Ty) : ((structOf t).any (·.2) = true) ↔ ∃ r, t = .ptr r := by
  cases t <;> simp [structOf]

/-- The translation of an expression that has a meaning has that meaning. -/
theorem means_done {F : Funcs} {W : World} (hT : Typed F W) {e : Ex} {t : Ty} {v : V} {l : List Nat} (h : Means F W e t v l) :
    Leaves W e → Good F e → Done F W e t v l := by
  induction h with
  | leaf k t i =>
    intro hl _
    refine ⟨rfl, hl, rfl, fun hk => ⟨t, i, ?_, rfl, rfl⟩⟩
    have : k = .place := hk
    subst this
    rfl
  | @meth op m a b ta tb va vb la lb s f g ha hb hd hs hnp hh iha ihb =>
    intro hl hg
    obtain ⟨ga, gb, gm, -⟩ := hg
    have da := iha hl.1 ga
    have db := ihb hl.2 gb
    obtain ⟨isPtr, hso, hpt, hst⟩ := structOf_ty hs
    rw [da.ty, db.ty] at gm
    obtain ⟨g1, g2⟩ := gm s m f g hd hs hh
    have hch : chosen F op ta tb = some (f, g, isPtr) := by
      unfold chosen
      rw [methodOf_doc hd, hso]
      simp only
      rw [if_neg, findOp_has hh]
      rintro ⟨h1, h2, h3⟩
      exact hnp ⟨h2, hpt.mp h1, (any_ptr tb).mp h3⟩
    have htr : tr F (.bin op a b) = (.call2 f (selfArg g isPtr (tr F a).2.2 (tr F a).1) (otherArg g tb (tr F b).2.2 (tr F b).1), g.ret, .fresh) := by
      simp only [tr, trBin, da.ty, db.ty, hch]
    obtain ⟨w1, e1, t1, s1⟩ := eval_self da hso g.selfPtr ref fun h1 h2 => ref_able (g1 h1 (hst.mp h2)) _
    obtain ⟨w2, e2, t2, s2⟩ := eval_other db g2
    obtain ⟨hF, hself⟩ := has_F hh
    refine ⟨by rw [htr], hT.meth2 f g _ _ hF, ?_, by rw [htr]; intro h; cases h⟩
    rw [htr]
    have e1' : evalC F W (selfArg g isPtr (tr F a).2.2 (tr F a).1) = some (w1, la) := e1
    simp only [evalC, hF, e1', e2, hself, t1, t2, cFits_self, Bool.and_self, if_true, s1, s2]
  | @neq a b ta tb va vb la lb s g v ha hb hta hnone hF hneg iha ihb =>
    intro hl hg
    obtain ⟨ga, gb, -, gq⟩ := hg
    have da := iha hl.1 ga
    have db := ihb hl.2 gb
    subst hta
    obtain ⟨q1, q2, q3⟩ := gq s g rfl da.ty hnone hF
    rw [db.ty] at q3
    subst q3
    obtain ⟨d1, rfl⟩ := ty_st da.val
    obtain ⟨d2, rfl⟩ := ty_st db.val
    have hch : chosen F "!=" (.st s) (.st s) = none := by
      have hm : methodOf "!=" = some "neq" := by decide
      unfold chosen
      rw [hm]
      simp only [structOf]
      rw [if_neg (by simp), findOp_none hnone]
    have htr : tr F (.bin "!=" a b) = (.not (.call2 (.own s "eq") (refEq (tr F a).2.2 (tr F a).1) (refEq (tr F b).2.2 (tr F b).1)), .num, .fresh) := by
      simp only [tr, trBin, da.ty, db.ty, hch, plain]
      simp [isCmp]
    obtain ⟨a1, e1⟩ := eval_ref da rfl refEq (refEq_any _ _)
    obtain ⟨a2, e2⟩ := eval_ref db rfl refEq (refEq_any _ _)
    have hvt : v.ty = .num := by
      unfold negated at hneg
      split at hneg
      · cases hneg; rfl
      · cases hneg
    refine ⟨by rw [htr], hvt, ?_, by rw [htr]; intro h; cases h⟩
    rw [htr]
    simp only [V.strip] at hneg
    have hfit : cFits (selfTy (.own s "eq") g) (V.ty (.ptr s a1 d1)) = true := by simp [selfTy, q1, V.ty, cFits]
    have hfit2 : cFits g.other (V.ty (.ptr s a2 d2)) = true := by simp [q2, V.ty, cFits]
    simp only [evalC, hF, e1, e2, hfit, hfit2, Bool.and_self, if_true, V.strip, hneg, Option.map_some]
  | @num op a b n m la lb ha hb iha ihb =>
    intro hl hg
    have da := iha hl.1 hg.1
    have db := ihb hl.2 hg.2.1
    have hch : ∀ tb, chosen F op .num tb = none := by
      intro tb
      unfold chosen
      cases methodOf op <;> rfl
    have htr : tr F (.bin op a b) = (.op op (tr F a).1 (tr F b).1, .num, .fresh) := by
      simp only [tr, trBin, da.ty, hch, plain]
      simp
    refine ⟨by rw [htr], rfl, ?_, by rw [htr]; intro h; cases h⟩
    rw [htr]
    simp only [evalC, da.eval, db.eval, cOp, Option.map_some]
  | @str a b x y t u la lb neg ha hb iha ihb =>
    intro hl hg
    have da := iha hl.1 hg.1
    have db := ihb hl.2 hg.2.1
    have hch : ∀ op tb, chosen F op .str tb = none := by
      intro op tb
      unfold chosen
      cases methodOf op <;> rfl
    have htr : tr F (.bin (if neg then "!=" else "==") a b) = (.text neg (tr F a).1 (tr F b).1, .num, .fresh) := by
      simp only [tr, trBin, da.ty, hch, plain]
      cases neg <;> simp [isCmp]
    refine ⟨by rw [htr], rfl, ?_, by rw [htr]; intro h; cases h⟩
    rw [htr]
    simp only [evalC, da.eval, db.eval]
  | @ptr a b x y s r d e la lb neg ha hb iha ihb =>
    intro hl hg
    have da := iha hl.1 hg.1
    have db := ihb hl.2 hg.2.1
    have hch : chosen F (if neg then "!=" else "==") (.ptr s) (.ptr r) = none := by
      unfold chosen
      cases neg
      · simp only [Bool.false_eq_true, if_false]
        have hm : methodOf "==" = some "eq" := by decide
        rw [hm]
        simp [structOf]
      · simp only [if_true]
        have hm : methodOf "!=" = some "neq" := by decide
        rw [hm]
        simp [structOf]
    have htr : tr F (.bin (if neg then "!=" else "==") a b) = (.op (if neg then "!=" else "==") (tr F a).1 (tr F b).1, .num, .fresh) := by
      simp only [tr, trBin, da.ty, db.ty, hch, plain]
      cases neg <;> simp [isCmp]
    refine ⟨by rw [htr], rfl, ?_, by rw [htr]; intro h; cases h⟩
    rw [htr]
    cases neg <;> simp [evalC, da.eval, db.eval, cOp, V.at?]
  | @un op m a ta va la s g ha hd hs hF iha =>
    intro hl hg
    have da := iha hl hg.1
    obtain ⟨isPtr, hso, hpt, hst⟩ := structOf_ty hs
    have hg2 := hg.2
    rw [da.ty] at hg2
    have htr : tr F (.un op a) = (.call1 (.own s m) (if g.selfPtr then (if isPtr then (tr F a).1 else refUn (tr F a).2.2 (tr F a).1)
        else (if isPtr then .deref (tr F a).1 else (tr F a).1)), g.ret, .fresh) := by
      simp only [tr, trUn, unMethodOf_doc hd, da.ty, hso, hF]
    obtain ⟨w, e1, t1, s1⟩ := eval_self da hso g.selfPtr refUn fun h1 h2 =>
      refUn_able (hg2 s m g hd hs hF h1 (hst.mp h2)).1 (hg2 s m g hd hs hF h1 (hst.mp h2)).2 _
    refine ⟨by rw [htr], hT.meth1 _ g _ hF, ?_, by rw [htr]; intro h; cases h⟩
    rw [htr]
    simp only [evalC, hF, e1, selfTy, t1, cFits_self, if_true, s1]
  | @unNum op a n la ha iha =>
    intro hl hg
    have da := iha hl hg.1
    have htr : tr F (.un op a) = (.uop op (tr F a).1, .num, .other) := by
      simp only [tr, trUn, da.ty, structOf]
      cases unMethodOf op <;> rfl
    refine ⟨by rw [htr], rfl, ?_, by rw [htr]; intro h; cases h⟩
    rw [htr]
    simp only [evalC, da.eval]

/-- **C84, partial.** Operators call the documented methods: the C code of an expression gives the value the specification gives it, evaluates
every operand once and in order, and has the type of the last method. Missing: expressions that are not `Good`, each kind of which is shown below. -/
theorem operators_partial {F : Funcs} {W : World} (hT : Typed F W) {e : Ex} {t : Ty} {v : V} {l : List Nat} (h : Means F W e t v l)
    (hl : Leaves W e) (hg : Good F e) : evalC F W (tr F e).1 = some (v, l) ∧ (tr F e).2.1 = t :=
  ⟨(means_done hT h hl hg).eval, (means_done hT h hl hg).ty⟩

/-- Only the documented operators can be overloaded. -/
theorem only_documented {F : Funcs} {op : String} {ta tb : Ty} {f : Fn} {g : Sig} {p : Bool} (h : chosen F op ta tb = some (f, g, p)) :
    ∃ s m, Documented op m ∧ Has F s m f g ∧ structTy ta = some s := by
  unfold chosen at h
  split at h
  · rename_i m s isPtr hm hs
    split at h
    · cases h
    · cases ho : findOp F s m with
      | none => rw [ho] at h; cases h
      | some fg =>
        obtain ⟨f', g'⟩ := fg
        rw [ho] at h
        simp only [Option.some.injEq, Prod.mk.injEq] at h
        obtain ⟨rfl, rfl, rfl⟩ := h
        refine ⟨s, m, doc_methodOf hm, ?_, ?_⟩
        · unfold findOp at ho
          cases h1 : F (.own s m) with
          | some g1 => rw [h1] at ho; cases ho; exact .own _ h1
          | none =>
            rw [h1] at ho
            cases h2 : F (.ofTrait s m) with
            | some g2 => rw [h2] at ho; cases ho; exact .ofTrait _ h1 h2
            | none => rw [h2] at ho; cases ho
        · cases ta <;> simp_all [structOf, structTy]
  · cases h

/-! ## An example -/

/-- `P` with `add(self: P*, o: P*) -> P`, `eq(self: P*, o: P*) -> num`, `neg(self: P*) -> P`, and `sub` in a trait. -/
def exF : Funcs := fun f =>
  if f = .own "P" "add" then some ⟨true, .ptr "P", .st "P"⟩
  else if f = .own "P" "eq" then some ⟨true, .ptr "P", .num⟩
  else if f = .own "P" "neg" then some ⟨true, .num, .st "P"⟩
  else if f = .ofTrait "P" "sub" then some ⟨true, .st "P", .st "P"⟩
  else if f = .own "P" "get" then some ⟨true, .num, .num⟩
  else if f = .own "Q" "eq" then some ⟨true, .st "Q", .num⟩
  else if f = .ofTrait "R" "eq" then some ⟨true, .ptr "R", .num⟩
  else none

/-- Leaves are structs `P` with one number; the methods add, compare and negate it. -/
def exW : World where
  val i := .obj "P" [i]
  addr i := i
  meth1 f v := match (exF f).map (·.ret), v with
    | some Ty.num, _ => .num 0
    | _, .obj _ [n] => .obj "P" [-n]
    | _, _ => .obj "P" [0]
  meth2 f v w := match (exF f).map (·.ret), v, w with
    | some Ty.num, v, w => truth (v = w)
    | _, .obj _ [n], .obj _ [m] => .obj "P" [n + m]
    | _, _, _ => .obj "P" [0]
  op _ n m := n + m
  uop _ n := -n

/-- `a + -f() != b` -/
def exE : Ex := .bin "!=" (.bin "+" (.leaf .place (.st "P") 5) (.un "-" (.leaf .fresh (.st "P") 2))) (.leaf .place (.st "P") 3)

theorem has_unique {F : Funcs} {s m : Name} {f f' : Fn} {g g' : Sig} (h : Has F s m f g) (h' : Has F s m f' g') : f = f' ∧ g = g' := by
  have e := (findOp_has h).symm.trans (findOp_has h')
  cases e
  exact ⟨rfl, rfl⟩

example : ∃ v, Means exF exW exE .num v [5, 2, 3] ∧ evalC exF exW (tr exF exE).1 = some (v, [5, 2, 3]) ∧ v = .num 0 := by
  refine ⟨_, .neq (g := ⟨true, .ptr "P", .num⟩) (.meth (m := "add") (f := .own "P" "add") (g := ⟨true, .ptr "P", .st "P"⟩) (.leaf _ _ _)
    (.un (m := "neg") (g := ⟨true, .num, .st "P"⟩) (.leaf _ _ _) .neg rfl (by decide)) .add rfl (by simp) (.own _ (by decide))) (.leaf _ _ _) rfl ?_ (by decide) rfl, by decide, by decide⟩
  intro f g h
  have := findOp_has h
  simp [findOp, exF] at this

/-- The example is one the claim is made for; its methods give what their types say. -/
theorem exE_good : Good exF exE ∧ Leaves exW exE ∧ Typed exF exW := by
  have hr : ∀ f g, exF f = some g → g.ret = .num ∨ g.ret = .st "P" := by
    intro f g h
    unfold exF at h
    repeat' split at h
    all_goals simp at h
    all_goals subst h; simp
  have ht : (tr exF (.bin "+" (.leaf .place (.st "P") 5) (.un "-" (.leaf .fresh (.st "P") 2)))).2 = (.st "P", .fresh) := by decide
  have hu : (tr exF (.un "-" (.leaf .fresh (.st "P") 2))).2 = (.st "P", .fresh) := by decide
  refine ⟨⟨⟨trivial, ⟨trivial, ?_⟩, ?_, ?_⟩, trivial, ?_, ?_⟩, ⟨⟨rfl, rfl⟩, rfl⟩, ⟨?_, ?_⟩⟩
  · intro s m g _ _ _ _ _
    exact ⟨(fun h => by cases h), (fun h => by cases h)⟩
  · intro s m f g hd hs hh
    rw [hu]
    have hm := methodOf_doc hd
    have : methodOf "+" = some "add" := by decide
    rw [this] at hm
    cases hm
    cases hs
    obtain ⟨rfl, rfl⟩ := has_unique hh (.own ⟨true, .ptr "P", .st "P"⟩ (by decide))
    exact ⟨(fun _ _ h => by cases h), .inr ⟨"P", rfl, rfl, (fun h => by cases h)⟩⟩
  · intro s g h; exact absurd h (by decide)
  · intro s m f g hd hs hh
    rw [ht] at hs
    have hm := methodOf_doc hd
    have : methodOf "!=" = some "neq" := by decide
    rw [this] at hm
    cases hm
    cases hs
    have := findOp_has hh
    simp [findOp, exF] at this
  · intro s g _ hs _ hF
    rw [ht] at hs
    cases hs
    have : exF (.own "P" "eq") = some ⟨true, .ptr "P", .num⟩ := by decide
    rw [this] at hF
    cases hF
    exact ⟨rfl, rfl, rfl⟩
  · intro f g v h
    simp only [exW, h, Option.map_some]
    rcases hr f g h with e | e
    · rw [e]; rfl
    · rw [e]; split <;> simp_all [V.ty]
  · intro f g v w h
    simp only [exW, h, Option.map_some]
    rcases hr f g h with e | e
    · rw [e]; rfl
    · rw [e]; split <;> simp_all [V.ty]

/-! ## What is not so -/

/-- README: `char* == char*` compares addresses. It compares the texts. -/
theorem cstr_violated : ∃ (W : World), W.val 0 = .text true 100 ['a'] ∧ W.val 1 = .text true 200 ['a'] ∧ ∀ F : Funcs,
    evalC F W (tr F (.bin "==" (.leaf .place .cstr 0) (.leaf .place .cstr 1))).1 = some (truth true, [0, 1]) :=
  ⟨{ exW with val := fun i => if i = 0 then .text true 100 ['a'] else .text true 200 ['a'] }, rfl, rfl, fun _ => rfl⟩

/-- README: comparing `string` with `char*` compares addresses. It compares the texts. -/
theorem mixed_violated : ∃ (W : World), W.val 0 = .text false 100 ['a'] ∧ W.val 1 = .text true 200 ['a'] ∧ ∀ F : Funcs,
    evalC F W (tr F (.bin "==" (.leaf .place .str 0) (.leaf .place .cstr 1))).1 = some (truth true, [0, 1]) :=
  ⟨{ exW with val := fun i => if i = 0 then .text false 100 ['a'] else .text true 200 ['a'] }, rfl, rfl, fun _ => rfl⟩

/-- An operator whose left operand is a conditional expression is rejected by the C compiler if `self` is a pointer. -/
theorem conditional_violated (i j : Nat) : evalC exF exW (tr exF (.bin "+" (.leaf .other (.st "P") i) (.leaf .place (.st "P") j))).1 = none := rfl

/-- So is a unary operator of a struct literal or a cast, although the binary ones are not. -/
theorem unary_literal_violated (i j : Nat) : evalC exF exW (tr exF (.un "-" (.leaf .init (.st "P") i))).1 = none ∧
    (evalC exF exW (tr exF (.bin "+" (.leaf .init (.st "P") i) (.leaf .place (.st "P") j))).1).isSome := ⟨rfl, rfl⟩

/-- `a - b` works if `sub` is in a trait; `a -= b` is rejected. -/
theorem compound_trait_violated (i j : Nat) :
    evalC exF exW (trCompound exF "-" (.leaf .place (.st "P") i, .st "P", .place) (.leaf .place (.st "P") j, .st "P", .place)) = none ∧
    (evalC exF exW (tr exF (.bin "-" (.leaf .place (.st "P") i) (.leaf .place (.st "P") j))).1).isSome := ⟨rfl, rfl⟩

/-- `a + b` works if the other parameter is a pointer; `a += b` is rejected. -/
theorem compound_pointer_violated (i j : Nat) :
    evalC exF exW (trCompound exF "+" (.leaf .place (.st "P") i, .st "P", .place) (.leaf .place (.st "P") j, .st "P", .place)) = none ∧
    (evalC exF exW (tr exF (.bin "+" (.leaf .place (.st "P") i) (.leaf .place (.st "P") j))).1).isSome := ⟨rfl, rfl⟩

/-- Where it is not rejected, a compound assignment computes what the operator does. -/
theorem compound_partial {F : Funcs} {W : World} {op : String} {m : Name} {s : Name} {g : Sig} {i : Nat} {d : List Int} {y : C × Ty × Kind} {w : V} {l : List Nat}
    (hd : Documented op m) (hF : F (.own s m) = some g) (hi : W.val i = .obj s d) (hy : evalC F W y.1 = some (w, l)) (hw : w.ty = g.other) :
    evalC F W (trCompound F op (.leaf .place (.st s) i, .st s, .place) y) = some (W.meth2 (.own s m) (.obj s d) w.strip, i :: l) := by
  unfold trCompound
  rw [methodOf_doc hd]
  simp only [structOf, hF, Bool.false_eq_true, if_false]
  have hfit : cFits g.other w.ty = true := by rw [hw, cFits_self]
  cases hp : g.selfPtr
  · simp only [Bool.false_eq_true, if_false, evalC, hF, hy, hi]
    have : cFits (selfTy (.own s m) g) (V.ty (.obj s d)) = true := by simp [selfTy, hp, V.ty, cFits]
    simp [this, hfit, V.strip]
  · simp only [if_true, evalC, hF, hy, hi]
    have : cFits (selfTy (.own s m) g) (V.ty (.ptr s (W.addr i) d)) = true := by simp [selfTy, hp, V.ty, cFits]
    simp [this, hfit, V.strip]

example : evalC exF exW (trCompound exF "+" (.leaf .place (.st "P") 4, .st "P", .place) (.addr (.leaf .place (.st "P") 6), .ptr "P", .other)) =
    some (.obj "P" [10], [4, 6]) := by
  rw [compound_partial (g := ⟨true, .ptr "P", .st "P"⟩) (d := [4]) (w := .ptr "P" 6 [6]) (l := [6]) .add (by decide) rfl rfl rfl]
  decide

/-- `==` works if `eq` takes the other operand by value; `!=` without `neq` is rejected. -/
theorem neq_value_violated : ∃ W : World, W.val 0 = .obj "Q" [] ∧
    (evalC exF W (tr exF (.bin "==" (.leaf .place (.st "Q") 0) (.leaf .place (.st "Q") 0))).1).isSome ∧
    evalC exF W (tr exF (.bin "!=" (.leaf .place (.st "Q") 0) (.leaf .place (.st "Q") 0))).1 = none :=
  ⟨{ exW with val := fun _ => .obj "Q" [] }, rfl, rfl, rfl⟩

/-- `==` works if `eq` is in a trait; `!=` without `neq` is rejected. -/
theorem neq_trait_violated : ∃ W : World, W.val 0 = .obj "R" [] ∧
    (evalC exF W (tr exF (.bin "==" (.leaf .place (.st "R") 0) (.leaf .place (.st "R") 0))).1).isSome ∧
    evalC exF W (tr exF (.bin "!=" (.leaf .place (.st "R") 0) (.leaf .place (.st "R") 0))).1 = none :=
  ⟨{ exW with val := fun _ => .obj "R" [] }, rfl, rfl, rfl⟩

/-- Pointers to a struct with `neg` are not pointers any more for `-`, `!` and the binary operators: `p + 1` is a call of `add`, which does not take a number. -/
theorem pointer_arith_violated : ∃ W : World, W.val 0 = .ptr "P" 100 [1] ∧ W.val 1 = .num 1 ∧
    evalC exF W (tr exF (.bin "+" (.leaf .place (.ptr "P") 0) (.leaf .place .num 1))).1 = none ∧
    (tr exF (.bin "+" (.leaf .place (.ptr "P") 0) (.leaf .place .num 1))).2.1 = .st "P" :=
  ⟨{ exW with val := fun i => if i = 0 then .ptr "P" 100 [1] else .num 1 }, rfl, rfl, rfl, rfl⟩

/-- `f()[i]` is rejected if `get` takes a pointer. -/
theorem get_call_violated (i : Nat) (j : C) : (trGet exF (.leaf .fresh (.st "P") i, .st "P", .fresh) j).map (evalC exF exW) = some none := by
  simp [trGet, exF, evalC]

/-- Constants can be changed with all operators that are not in the list. -/
theorem const_violated : constChecked "%=" = false ∧ constChecked "&=" = false ∧ constChecked "<<=" = false ∧ constChecked "??=" = false ∧
    constChecked "+=" = true := by decide

/-- Every function whose name ends in `_get` can be assigned to, if there is one with `_set`. -/
theorem set_name_violated : setName "cache_get" = some "cache_set" ∧ setName "Vec__get" = some "Vec__set" := by decide

end Verif.Overload
