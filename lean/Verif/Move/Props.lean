import Verif.Move.Lemmas

/-!
# Claims about the use-after-move check (C24)
-/

namespace Verif.Move

open Spec

section
variable {owned : String → Bool}

theorem Rel.set_true {g : Scope} {v : Env} {m : MS} {x : String} (h : Rel owned g v m)
    (hl : lookup g x = some false) (ho : owned x = true) :
    Rel owned g (setV v x true) (markMoved owned g m x) := by
  refine ⟨by rw [setV_names]; exact h.names, by rw [setV_names]; exact h.nodup, ?_⟩
  intro y hy
  have hm : markMoved owned g m x = setM m x true := by rw [markMoved, hl]; simp [ho]
  rw [hm, getM_setM]
  rcases setV_mem v x true y true h.nodup hy with ⟨rfl, _⟩ | ⟨hne, hy⟩
  · exact ⟨ho, by simp⟩
  · rw [if_neg hne]
    exact h.mv y hy

theorem Rel.set_false {g : Scope} {v : Env} {m : MS} {x : String} (h : Rel owned g v m) :
    Rel owned g (setV v x false) (markValid g m x) := by
  refine ⟨by rw [setV_names]; exact h.names, by rw [setV_names]; exact h.nodup, ?_⟩
  intro y hy
  rcases setV_mem v x false y true h.nodup hy with ⟨_, hb⟩ | ⟨hne, hy⟩
  · cases hb
  · exact ⟨(h.mv y hy).1, markValid_mono _ _ _ _ hne (h.mv y hy).2⟩

mutual
/-- An expression without owned variables reads and changes nothing that matters. -/
theorem noOwnedE_eval {v : Env} (hv : ∀ x, (x, true) ∈ v → owned x = true) (e : Expr) (rv : Bool)
    (r : Option Env) (hs : noOwnedE owned e = true) (he : EE owned e rv v r) : r = some v := by
  cases e with
  | lit => cases he; rfl
  | var x =>
    simp only [noOwnedE, Bool.not_eq_true'] at hs
    cases he with
    | varBad _ _ _ hm =>
      have := hv x (moved_mem hm)
      rw [hs] at this
      cases this
    | varOk _ _ _ hm => simp [hs]
  | un e =>
    simp only [noOwnedE] at hs
    cases he with
    | un _ _ _ _ h => exact noOwnedE_eval hv e false r hs h
  | bin a b =>
    simp only [noOwnedE, Bool.and_eq_true] at hs
    cases he with
    | binBad _ _ _ _ h => cases noOwnedE_eval hv a false _ hs.1 h
    | bin _ _ _ _ v1 _ h1 h2 =>
      cases noOwnedE_eval hv a false _ hs.1 h1
      exact noOwnedE_eval hv b false _ hs.2 h2
  | sc a b =>
    simp only [noOwnedE, Bool.and_eq_true] at hs
    cases he with
    | scBad _ _ _ _ h => cases noOwnedE_eval hv a false _ hs.1 h
    | scStop _ _ _ _ v1 h => exact noOwnedE_eval hv a false _ hs.1 h
    | sc _ _ _ _ v1 _ h1 h2 =>
      cases noOwnedE_eval hv a false _ hs.1 h1
      exact noOwnedE_eval hv b false _ hs.2 h2
  | assign x e => simp [noOwnedE] at hs
  | store x i e => simp [noOwnedE] at hs
  | call f as =>
    simp only [noOwnedE, Bool.and_eq_true] at hs
    cases he with
    | callBad _ _ _ _ h => cases noOwnedE_eval hv f false _ hs.1 h
    | call _ _ _ _ v1 _ h1 h2 =>
      cases noOwnedE_eval hv f false _ hs.1 h1
      exact noOwnedEL_eval hv as _ hs.2 h2
  | tern c a b =>
    simp only [noOwnedE, Bool.and_eq_true] at hs
    cases he with
    | ternBad _ _ _ _ _ h => cases noOwnedE_eval hv c false _ hs.1.1 h
    | ternT _ _ _ _ _ v1 _ h1 h2 =>
      cases noOwnedE_eval hv c false _ hs.1.1 h1
      exact noOwnedE_eval hv a rv _ hs.1.2 h2
    | ternF _ _ _ _ _ v1 _ h1 h2 =>
      cases noOwnedE_eval hv c false _ hs.1.1 h1
      exact noOwnedE_eval hv b rv _ hs.2 h2
  | arr es =>
    simp only [noOwnedE] at hs
    cases he with
    | arr _ _ _ _ h => exact noOwnedEL_eval hv es _ hs h
theorem noOwnedEL_eval {v : Env} (hv : ∀ x, (x, true) ∈ v → owned x = true) (es : Exprs)
    (r : Option Env) (hs : noOwnedEL owned es = true) (he : EL owned es v r) : r = some v := by
  cases es with
  | nil => cases he; rfl
  | cons e es =>
    simp only [noOwnedEL, Bool.and_eq_true] at hs
    cases he with
    | bad _ _ _ h => cases noOwnedE_eval hv e true _ hs.1 h
    | cons _ _ _ v1 _ h1 h2 =>
      cases noOwnedE_eval hv e true _ hs.1 h1
      exact noOwnedEL_eval hv es _ hs.2 h2
end

theorem nil_mono {g : Scope} {lhs : Bool} {e : Expr} {m m' : MS} {v : Env}
    (ha : (asgE e).isEmpty = true) (h : chkE owned g lhs e m = some m') (hr : Rel owned g v m) :
    Rel owned g v m' := by
  apply hr.mono
  intro x _ hm
  refine chkE_mono g lhs e m m' h x ?_ hm
  rw [List.isEmpty_iff] at ha
  rw [ha]
  exact List.not_mem_nil

mutual
theorem noOwned_asg (e : Expr) (h : noOwnedE owned e = true) : asgE e = [] := by
  cases e <;> simp only [noOwnedE, Bool.and_eq_true, Bool.false_eq_true] at h <;>
    simp only [asgE, List.append_eq_nil_iff]
  case un e => exact noOwned_asg e h
  case bin a b => exact ⟨noOwned_asg a h.1, noOwned_asg b h.2⟩
  case sc a b => exact ⟨noOwned_asg a h.1, noOwned_asg b h.2⟩
  case call f as => exact ⟨noOwned_asg f h.1, noOwnedL_asg as h.2⟩
  case tern c a b => exact ⟨noOwned_asg c h.1.1, noOwned_asg a h.1.2, noOwned_asg b h.2⟩
  case arr es => exact noOwnedL_asg es h
theorem noOwnedL_asg (es : Exprs) (h : noOwnedEL owned es = true) : asgEL es = [] := by
  cases es with
  | nil => rfl
  | cons e r =>
    simp only [noOwnedEL, Bool.and_eq_true] at h
    simp only [asgEL, List.append_eq_nil_iff]
    exact ⟨noOwned_asg e h.1, noOwnedL_asg r h.2⟩
end

/-- The state after the value of `e` has been taken over, or not. -/
def after (owned : String → Bool) (g : Scope) (rv : Bool) (m : MS) (e : Expr) : MS :=
  if rv then markRv owned g m e else m

theorem after_plain (g : Scope) (rv : Bool) (m : MS) (e : Expr) (h : plain owned e = true) :
    after owned g rv m e = m := by
  cases rv
  · rfl
  · exact markRv_plain g m e h

mutual
/-- Expressions accepted by the check read no moved-out variable. -/
theorem chkE_sound (g : Scope) (e : Expr) (rv : Bool) (v : Env) (m m' : MS) (r : Option Env)
    (hr : Rel owned g v m) (hs : safeE owned g e = true)
    (hc : chkE owned g false e m = some m') (he : EE owned e rv v r) :
    ∃ v', r = some v' ∧ Rel owned g v' (after owned g rv m' e) := by
  cases e with
  | lit =>
    simp only [chkE, Option.some.injEq] at hc
    subst hc
    cases he
    exact ⟨v, rfl, by rw [after_plain _ _ _ _ (by rfl)]; exact hr⟩
  | var x =>
    simp only [safeE, Bool.or_eq_true, Bool.not_eq_true', beq_iff_eq] at hs
    simp only [chkE, Bool.not_false, Bool.true_and] at hc
    split at hc
    · cases hc
    rename_i hn
    injection hc with hc
    subst hc
    cases he with
    | varBad _ _ _ hm =>
      exfalso
      have hmem := moved_mem hm
      have h1 := hr.mv x hmem
      have h2 := lookup_some (g := g) (x := x)
        (by rw [← hr.names]; exact List.mem_map.2 ⟨_, hmem, rfl⟩)
      rw [h2, h1.2] at hn
      simp at hn
    | varOk _ _ _ hm =>
      refine ⟨_, rfl, ?_⟩
      cases rv with
      | false => simpa [after] using hr
      | true =>
        cases ho : owned x with
        | false =>
          rw [after_plain _ _ _ _ (by simp [plain, ho])]
          simpa using hr
        | true =>
          have hl : lookup g x = some false := by
            rcases hs with hs | hs
            · rw [ho] at hs
              cases hs
            · exact hs
          simpa [after, markRv] using hr.set_true hl ho
  | un e =>
    simp only [safeE] at hs
    rw [chkE] at hc
    rw [after_plain _ _ _ _ (by rfl)]
    cases he with
    | un _ _ _ _ h => exact chkE_sound g e false v m m' r hr hs hc h
  | bin a b =>
    simp only [safeE, Bool.and_eq_true] at hs
    rw [chkE, Option.bind_eq_some_iff] at hc
    obtain ⟨m1, h1, h2⟩ := hc
    rw [after_plain _ _ _ _ (by rfl)]
    cases he with
    | binBad _ _ _ _ h =>
      obtain ⟨_, hh, _⟩ := chkE_sound g a false v m m1 _ hr hs.1 h1 h
      cases hh
    | bin _ _ _ _ v1 _ ha hb =>
      obtain ⟨v1', hh, hr1⟩ := chkE_sound g a false v m m1 _ hr hs.1 h1 ha
      cases hh
      exact chkE_sound g b false v1 m1 m' r hr1 hs.2 h2 hb
  | sc a b =>
    simp only [safeE, Bool.and_eq_true] at hs
    rw [chkE, Option.bind_eq_some_iff] at hc
    obtain ⟨m1, h1, h2⟩ := hc
    rw [after_plain _ _ _ _ (by rfl)]
    cases he with
    | scBad _ _ _ _ h =>
      obtain ⟨_, hh, _⟩ := chkE_sound g a false v m m1 _ hr hs.1.1 h1 h
      cases hh
    | scStop _ _ _ _ v1 ha =>
      obtain ⟨v1', hh, hr1⟩ := chkE_sound g a false v m m1 _ hr hs.1.1 h1 ha
      cases hh
      exact ⟨v1, rfl, nil_mono hs.2 h2 hr1⟩
    | sc _ _ _ _ v1 _ ha hb =>
      obtain ⟨v1', hh, hr1⟩ := chkE_sound g a false v m m1 _ hr hs.1.1 h1 ha
      cases hh
      exact chkE_sound g b false v1 m1 m' r hr1 hs.1.2 h2 hb
  | assign x e =>
    simp only [safeE] at hs
    rw [chkE, Option.bind_eq_some_iff] at hc
    obtain ⟨m1, h1, h2⟩ := hc
    simp only [Option.some.injEq] at h2
    subst h2
    rw [after_plain _ _ _ _ (by rfl)]
    cases he with
    | assignBad _ _ _ _ h =>
      obtain ⟨_, hh, _⟩ := chkE_sound g e true v m m1 _ hr hs h1 h
      cases hh
    | assign _ _ _ _ v1 h =>
      obtain ⟨v1', hh, hr1⟩ := chkE_sound g e true v m m1 _ hr hs h1 h
      cases hh
      exact ⟨_, rfl, Rel.set_false hr1⟩
  | store x i e =>
    simp only [safeE, Bool.and_eq_true] at hs
    rw [chkE, Option.bind_eq_some_iff] at hc
    obtain ⟨m2, h1, h3⟩ := hc
    rw [Option.bind_eq_some_iff] at h1
    obtain ⟨m1, h1, h2⟩ := h1
    simp only [Option.some.injEq] at h3
    subst h3
    rw [after_plain _ _ _ _ (by rfl)]
    have hv : ∀ x, (x, true) ∈ v → owned x = true := fun x hx => (hr.mv x hx).1
    have hr1 : Rel owned g v m1 :=
      nil_mono (by rw [noOwned_asg i hs.1]; rfl) h1 hr
    cases he with
    | storeBadI _ _ _ _ _ h => cases noOwnedE_eval hv i false _ hs.1 h
    | store _ _ _ _ _ v1 _ hi h =>
      cases noOwnedE_eval hv i false _ hs.1 hi
      exact chkE_sound g e true v m1 m2 _ hr1 hs.2 h2 h
  | call f as =>
    simp only [safeE, Bool.and_eq_true] at hs
    rw [chkE, Option.bind_eq_some_iff] at hc
    obtain ⟨m1, h1, h2⟩ := hc
    rw [after_plain _ _ _ _ (by rfl)]
    cases he with
    | callBad _ _ _ _ h =>
      obtain ⟨_, hh, _⟩ := chkE_sound g f false v m m1 _ hr hs.1 h1 h
      cases hh
    | call _ _ _ _ v1 _ ha hb =>
      obtain ⟨v1', hh, hr1⟩ := chkE_sound g f false v m m1 _ hr hs.1 h1 ha
      cases hh
      exact chkArgs_sound g as v1 m1 m' r hr1 hs.2 h2 hb
  | tern c a b =>
    simp only [safeE, Bool.and_eq_true] at hs
    obtain ⟨⟨⟨⟨⟨⟨sc, sa⟩, sb⟩, pa⟩, pb⟩, na⟩, nb⟩ := hs
    rw [chkE, Option.bind_eq_some_iff] at hc
    obtain ⟨m2, h1, h3⟩ := hc
    rw [Option.bind_eq_some_iff] at h1
    obtain ⟨m1, h1, h2⟩ := h1
    rw [after_plain _ _ _ _ (by rfl)]
    cases he with
    | ternBad _ _ _ _ _ h =>
      obtain ⟨_, hh, _⟩ := chkE_sound g c false v m m1 _ hr sc h1 h
      cases hh
    | ternT _ _ _ _ _ v1 _ hcc h =>
      obtain ⟨v1', hh, hr1⟩ := chkE_sound g c false v m m1 _ hr sc h1 hcc
      cases hh
      obtain ⟨v2, hh, hr2⟩ := chkE_sound g a rv v1 m1 m2 _ hr1 sa h2 h
      rw [after_plain _ _ _ _ pa] at hr2
      exact ⟨v2, hh, nil_mono nb h3 hr2⟩
    | ternF _ _ _ _ _ v1 _ hcc h =>
      obtain ⟨v1', hh, hr1⟩ := chkE_sound g c false v m m1 _ hr sc h1 hcc
      cases hh
      obtain ⟨v2, hh, hr2⟩ := chkE_sound g b rv v1 m2 m' _ (nil_mono na h2 hr1) sb h3 h
      rw [after_plain _ _ _ _ pb] at hr2
      exact ⟨v2, hh, hr2⟩
  | arr es =>
    simp only [safeE] at hs
    rw [chkE] at hc
    rw [after_plain _ _ _ _ (by rfl)]
    cases he with
    | arr _ _ _ _ h => exact chkList_sound g es v m m' r hr hs hc h
theorem chkArgs_sound (g : Scope) (es : Exprs) (v : Env) (m m' : MS) (r : Option Env)
    (hr : Rel owned g v m) (hs : safeEL owned g es = true)
    (hc : chkArgs owned g false es m = some m') (he : EL owned es v r) :
    ∃ v', r = some v' ∧ Rel owned g v' m' := by
  cases es with
  | nil =>
    simp only [chkArgs, Option.some.injEq] at hc
    subst hc
    cases he
    exact ⟨v, rfl, hr⟩
  | cons e es =>
    simp only [safeEL, Bool.and_eq_true] at hs
    rw [chkArgs, Option.bind_eq_some_iff] at hc
    obtain ⟨m1, h1, h2⟩ := hc
    cases he with
    | bad _ _ _ h =>
      obtain ⟨_, hh, _⟩ := chkE_sound g e true v m m1 _ hr hs.1 h1 h
      cases hh
    | cons _ _ _ v1 _ ha hb =>
      obtain ⟨v1', hh, hr1⟩ := chkE_sound g e true v m m1 _ hr hs.1 h1 ha
      cases hh
      exact chkArgs_sound g es v1 _ m' r hr1 hs.2 h2 hb
theorem chkList_sound (g : Scope) (es : Exprs) (v : Env) (m m' : MS) (r : Option Env)
    (hr : Rel owned g v m) (hs : safeArr owned g es = true)
    (hc : chkList owned g false es m = some m') (he : EL owned es v r) :
    ∃ v', r = some v' ∧ Rel owned g v' m' := by
  cases es with
  | nil =>
    simp only [chkList, Option.some.injEq] at hc
    subst hc
    cases he
    exact ⟨v, rfl, hr⟩
  | cons e es =>
    simp only [safeArr, Bool.and_eq_true] at hs
    rw [chkList, Option.bind_eq_some_iff] at hc
    obtain ⟨m1, h1, h2⟩ := hc
    cases he with
    | bad _ _ _ h =>
      obtain ⟨_, hh, _⟩ := chkE_sound g e true v m m1 _ hr hs.1.1 h1 h
      cases hh
    | cons _ _ _ v1 _ ha hb =>
      obtain ⟨v1', hh, hr1⟩ := chkE_sound g e true v m m1 _ hr hs.1.1 h1 ha
      rw [after_plain _ _ _ _ hs.1.2] at hr1
      cases hh
      exact chkList_sound g es v1 _ m' r hr1 hs.2 h2 hb
end

/-! Variables declared outside that a statement neither moves nor assigns keep their state. -/

mutual
theorem evalE_frame (v0 : Env) (e : Expr) (rv : Bool) (p v' : Env)
    (ha : ∀ x ∈ asgE e, x ∉ v0.map Prod.fst) (hm : ∀ x ∈ mvE owned rv e, x ∉ v0.map Prod.fst)
    (he : EE owned e rv (p ++ v0) (some v')) : ∃ p', v' = p' ++ v0 := by
  cases e with
  | lit => cases he; exact ⟨p, rfl⟩
  | var x =>
    cases he with
    | varOk _ _ _ _ =>
      by_cases hb : (rv && owned x) = true
      · simp only [hb, if_true]
        rw [setV_append]
        · exact ⟨_, rfl⟩
        · exact hm x (by simp [mvE, hb])
      · simp only [hb]
        exact ⟨p, rfl⟩
  | un e =>
    cases he with
    | un _ _ _ _ h => exact evalE_frame v0 e false p v' ha hm h
  | bin a b =>
    simp only [asgE, mvE, List.mem_append, or_imp, forall_and] at ha hm
    cases he with
    | bin _ _ _ _ v1 _ h1 h2 =>
      obtain ⟨p1, rfl⟩ := evalE_frame v0 a false p v1 ha.1 hm.1 h1
      exact evalE_frame v0 b false p1 v' ha.2 hm.2 h2
  | sc a b =>
    simp only [asgE, mvE, List.mem_append, or_imp, forall_and] at ha hm
    cases he with
    | scStop _ _ _ _ v1 h1 => exact evalE_frame v0 a false p v' ha.1 hm.1 h1
    | sc _ _ _ _ v1 _ h1 h2 =>
      obtain ⟨p1, rfl⟩ := evalE_frame v0 a false p v1 ha.1 hm.1 h1
      exact evalE_frame v0 b false p1 v' ha.2 hm.2 h2
  | assign x e =>
    simp only [asgE, mvE, List.mem_cons, forall_eq_or_imp] at ha hm
    cases he with
    | assign _ _ _ _ v1 h =>
      obtain ⟨p1, rfl⟩ := evalE_frame v0 e true p v1 ha.2 hm h
      rw [setV_append _ _ _ _ ha.1]
      exact ⟨_, rfl⟩
  | store x i e =>
    simp only [asgE, mvE, List.mem_append, or_imp, forall_and] at ha hm
    cases he with
    | store _ _ _ _ _ v1 _ h1 h2 =>
      obtain ⟨p1, rfl⟩ := evalE_frame v0 i false p v1 ha.1 hm.1 h1
      exact evalE_frame v0 e true p1 v' ha.2 hm.2 h2
  | call f as =>
    simp only [asgE, mvE, List.mem_append, or_imp, forall_and] at ha hm
    cases he with
    | call _ _ _ _ v1 _ h1 h2 =>
      obtain ⟨p1, rfl⟩ := evalE_frame v0 f false p v1 ha.1 hm.1 h1
      exact evalL_frame v0 as p1 v' ha.2 hm.2 h2
  | tern c a b =>
    simp only [asgE, mvE, List.mem_append, or_imp, forall_and] at ha hm
    cases he with
    | ternT _ _ _ _ _ v1 _ h1 h2 =>
      obtain ⟨p1, rfl⟩ := evalE_frame v0 c false p v1 ha.1 hm.1 h1
      exact evalE_frame v0 a rv p1 v' ha.2.1 hm.2.1 h2
    | ternF _ _ _ _ _ v1 _ h1 h2 =>
      obtain ⟨p1, rfl⟩ := evalE_frame v0 c false p v1 ha.1 hm.1 h1
      exact evalE_frame v0 b rv p1 v' ha.2.2 hm.2.2 h2
  | arr es =>
    cases he with
    | arr _ _ _ _ h => exact evalL_frame v0 es p v' ha hm h
theorem evalL_frame (v0 : Env) (es : Exprs) (p v' : Env)
    (ha : ∀ x ∈ asgEL es, x ∉ v0.map Prod.fst) (hm : ∀ x ∈ mvEL owned es, x ∉ v0.map Prod.fst)
    (he : EL owned es (p ++ v0) (some v')) : ∃ p', v' = p' ++ v0 := by
  cases es with
  | nil => cases he; exact ⟨p, rfl⟩
  | cons e es =>
    simp only [asgEL, mvEL, List.mem_append, or_imp, forall_and] at ha hm
    cases he with
    | cons _ _ _ v1 _ h1 h2 =>
      obtain ⟨p1, rfl⟩ := evalE_frame v0 e true p v1 ha.1 hm.1 h1
      exact evalL_frame v0 es p1 v' ha.2 hm.2 h2
end

theorem pop_frame (v0 p q : Env) : ∃ r, pop (p ++ v0) (q ++ v0) = r ++ v0 := pop_append p q v0

/-- Loops keep what their condition and their body keep. -/
theorem while_frame (v0 : Env) (c : Expr) (b : Stmt)
    (hc : ∀ p v', EE owned c false (p ++ v0) (some v') → ∃ p', v' = p' ++ v0)
    (hb : ∀ p o v', Exec owned b (p ++ v0) o v' → ∃ p', v' = p' ++ v0)
    (p : Env) (o : Out) (v' : Env) (he : Exec owned (.whil c b) (p ++ v0) o v') :
    ∃ p', v' = p' ++ v0 := by
  generalize hs : Stmt.whil c b = s at he
  generalize hv : p ++ v0 = v at he
  induction he using Exec.rec (motive_2 := fun _ _ _ _ _ => True)
    (motive_3 := fun _ _ _ _ _ => True) generalizing p <;> try trivial
  all_goals first | (cases hs; done) | skip
  case whilBad => subst hv; exact ⟨p, rfl⟩
  case whilEnd h => cases hs; subst hv; exact hc p _ h
  case whilNext h1 h2 h3 h4 ih2 ih4 =>
    cases hs
    subst hv
    obtain ⟨p1, rfl⟩ := hc p _ h1
    obtain ⟨p2, rfl⟩ := hb p1 _ _ h2
    obtain ⟨r, hr⟩ := pop_frame v0 p p2
    exact ih4 r rfl hr.symm
  case whilBrk h1 h2 ih2 =>
    cases hs
    subst hv
    obtain ⟨p1, rfl⟩ := hc p _ h1
    obtain ⟨p2, rfl⟩ := hb p1 _ _ h2
    exact pop_frame v0 p p2
  case whilOut h1 h2 h3 ih2 =>
    cases hs
    subst hv
    obtain ⟨p1, rfl⟩ := hc p _ h1
    obtain ⟨p2, rfl⟩ := hb p1 _ _ h2
    exact pop_frame v0 p p2

theorem rng_frame (v0 : Env) (b : Stmt)
    (hb : ∀ p o v', Exec owned b (p ++ v0) o v' → ∃ p', v' = p' ++ v0)
    (p : Env) (o : Out) (v' : Env) (he : Exec owned (.rng b) (p ++ v0) o v') :
    ∃ p', v' = p' ++ v0 := by
  generalize hs : Stmt.rng b = s at he
  generalize hv : p ++ v0 = v at he
  induction he using Exec.rec (motive_2 := fun _ _ _ _ _ => True)
    (motive_3 := fun _ _ _ _ _ => True) generalizing p <;> try trivial
  all_goals first | (cases hs; done) | skip
  case rngEnd => subst hv; exact ⟨p, rfl⟩
  case rngNext h2 h3 h4 ih2 ih4 =>
    cases hs
    subst hv
    obtain ⟨p2, rfl⟩ := hb p _ _ h2
    obtain ⟨r, hr⟩ := pop_frame v0 p p2
    exact ih4 r rfl hr.symm
  case rngBrk h2 ih2 =>
    cases hs
    subst hv
    obtain ⟨p2, rfl⟩ := hb p _ _ h2
    exact pop_frame v0 p p2
  case rngOut h2 h3 ih2 =>
    cases hs
    subst hv
    obtain ⟨p2, rfl⟩ := hb p _ _ h2
    exact pop_frame v0 p p2

mutual
theorem execS_frame (v0 : Env) (s : Stmt) (p : Env) (o : Out) (v' : Env)
    (ha : ∀ x ∈ asgS s, x ∉ v0.map Prod.fst) (hm : ∀ x ∈ mvS owned s, x ∉ v0.map Prod.fst)
    (he : Exec owned s (p ++ v0) o v') : ∃ p', v' = p' ++ v0 := by
  cases s with
  | expr e =>
    cases he with
    | exprBad _ _ _ => exact ⟨p, rfl⟩
    | expr _ _ _ h => exact evalE_frame v0 e false p v' ha hm h
  | decl x e =>
    cases he with
    | declBad _ _ _ _ => exact ⟨p, rfl⟩
    | decl _ _ _ v1 h =>
      obtain ⟨p1, rfl⟩ := evalE_frame v0 e true p v1 ha hm h
      exact ⟨(x, false) :: p1, rfl⟩
  | ret e =>
    cases he with
    | retBad _ _ _ => exact ⟨p, rfl⟩
    | ret _ _ _ h => exact evalE_frame v0 e true p v' ha hm h
  | brk => cases he; exact ⟨p, rfl⟩
  | cont => cases he; exact ⟨p, rfl⟩
  | block b =>
    cases he with
    | block _ _ _ v1 h =>
      obtain ⟨p1, rfl⟩ := execL_frame v0 b p o v1 ha hm h
      exact pop_frame v0 p p1
  | ite c t e =>
    simp only [asgS, mvS, List.mem_append, or_imp, forall_and] at ha hm
    cases he with
    | iteBad _ _ _ _ _ => exact ⟨p, rfl⟩
    | iteT _ _ _ _ v1 _ v2 h1 h2 =>
      obtain ⟨p1, rfl⟩ := evalE_frame v0 c false p v1 ha.1 hm.1 h1
      obtain ⟨p2, rfl⟩ := execS_frame v0 t p1 o v2 ha.2.1 hm.2.1 h2
      exact pop_frame v0 p p2
    | iteE _ _ _ _ v1 _ v2 h1 h2 =>
      obtain ⟨p1, rfl⟩ := evalE_frame v0 c false p v1 ha.1 hm.1 h1
      obtain ⟨p2, rfl⟩ := execS_frame v0 e p1 o v2 ha.2.2 hm.2.2 h2
      exact pop_frame v0 p p2
  | ifOnly c t =>
    simp only [asgS, mvS, List.mem_append, or_imp, forall_and] at ha hm
    cases he with
    | ifBad _ _ _ _ => exact ⟨p, rfl⟩
    | ifT _ _ _ v1 _ v2 h1 h2 =>
      obtain ⟨p1, rfl⟩ := evalE_frame v0 c false p v1 ha.1 hm.1 h1
      obtain ⟨p2, rfl⟩ := execS_frame v0 t p1 o v2 ha.2 hm.2 h2
      exact pop_frame v0 p p2
    | ifF _ _ _ v1 h1 => exact evalE_frame v0 c false p v' ha.1 hm.1 h1
  | cond1 c t =>
    simp only [asgS, mvS, List.mem_append, or_imp, forall_and] at ha hm
    cases he with
    | condBad _ _ _ _ => exact ⟨p, rfl⟩
    | condT _ _ _ v1 _ v2 h1 h2 =>
      obtain ⟨p1, rfl⟩ := evalE_frame v0 c false p v1 ha.1 hm.1 h1
      obtain ⟨p2, rfl⟩ := execS_frame v0 t p1 o v2 ha.2 hm.2 h2
      exact pop_frame v0 p p2
    | condF _ _ _ v1 h1 => exact evalE_frame v0 c false p v' ha.1 hm.1 h1
  | mtch e a =>
    simp only [asgS, mvS, List.mem_append, or_imp, forall_and] at ha hm
    cases he with
    | mtchBad _ _ _ _ => exact ⟨p, rfl⟩
    | mtch _ _ _ v1 _ _ h1 h2 =>
      obtain ⟨p1, rfl⟩ := evalE_frame v0 e false p v1 ha.1 hm.1 h1
      exact execA_frame v0 a p1 o v' ha.2 hm.2 h2
  | whil c b =>
    simp only [asgS, mvS, List.mem_append, or_imp, forall_and] at ha hm
    exact while_frame v0 c b (fun p v' h => evalE_frame v0 c false p v' ha.1 hm.1 h)
      (fun p o v' h => execS_frame v0 b p o v' ha.2 hm.2 h) p o v' he
  | rng b =>
    exact rng_frame v0 b (fun p o v' h => execS_frame v0 b p o v' ha hm h) p o v' he
theorem execL_frame (v0 : Env) (b : Stmts) (p : Env) (o : Out) (v' : Env)
    (ha : ∀ x ∈ asgL b, x ∉ v0.map Prod.fst) (hm : ∀ x ∈ mvL owned b, x ∉ v0.map Prod.fst)
    (he : ExecL owned b (p ++ v0) o v') : ∃ p', v' = p' ++ v0 := by
  cases b with
  | nil => cases he; exact ⟨p, rfl⟩
  | cons s r =>
    simp only [asgL, mvL, List.mem_append, or_imp, forall_and] at ha hm
    cases he with
    | next _ _ _ v1 _ _ h1 h2 =>
      obtain ⟨p1, rfl⟩ := execS_frame v0 s p _ v1 ha.1 hm.1 h1
      exact execL_frame v0 r p1 o v' ha.2 hm.2 h2
    | stop _ _ _ _ _ h1 _ => exact execS_frame v0 s p o v' ha.1 hm.1 h1
theorem execA_frame (v0 : Env) (a : Arms) (p : Env) (o : Out) (v' : Env)
    (ha : ∀ x ∈ asgA a, x ∉ v0.map Prod.fst) (hm : ∀ x ∈ mvA owned a, x ∉ v0.map Prod.fst)
    (he : ExecA owned a (p ++ v0) o v') : ∃ p', v' = p' ++ v0 := by
  cases a with
  | nil => cases he; exact ⟨p, rfl⟩
  | cons b r =>
    simp only [asgA, mvA, List.mem_append, or_imp, forall_and] at ha hm
    cases he with
    | take _ _ _ _ v1 h1 =>
      obtain ⟨p1, rfl⟩ := execS_frame v0 b p o v1 ha.1 hm.1 h1
      exact pop_frame v0 p p1
    | skip _ _ _ _ _ h => exact execA_frame v0 r p o v' ha.2 hm.2 h
end

/-! Statements -/

theorem apart_mem {xs : List String} {g : Scope} (h : apart xs g = true) {x : String}
    (hx : x ∈ xs) : x ∉ g.map Prod.fst := by
  rw [apart, List.all_eq_true] at h
  have := h x hx
  rw [Option.isNone_iff_eq_none] at this
  exact lookup_none this

theorem apart_not {xs : List String} {g : Scope} (h : apart xs g = true) {x : String}
    (hx : (lookup g x).isSome) : x ∉ xs := by
  intro hm
  rw [apart, List.all_eq_true] at h
  have := h x hm
  rw [Option.isNone_iff_eq_none] at this
  rw [this] at hx
  cases hx

/-- A loop that touches nothing outside leaves everything outside as it was. -/
theorem while_sound (g : Scope) (c : Expr) (b : Stmt) (v : Env) (m m1 : MS)
    (hr : Rel owned g v m) (sc : safeE owned g c = true)
    (hc : chkE owned g false c m = some m1)
    (ha : apart (asgE c ++ asgS b) g = true) (hm : apart (mvE owned false c ++ mvS owned b) g = true)
    (ih : ∀ v o v', Rel owned g v m1 → Exec owned b v o v' → o ≠ .bad)
    (o : Out) (v' : Env) (he : Exec owned (.whil c b) v o v') : o ≠ .bad ∧ v' = v := by
  have fa : ∀ x ∈ asgE c ++ asgS b, x ∉ v.map Prod.fst := fun x hx => by
    rw [hr.names]; exact apart_mem ha hx
  have fm : ∀ x ∈ mvE owned false c ++ mvS owned b, x ∉ v.map Prod.fst := fun x hx => by
    rw [hr.names]; exact apart_mem hm hx
  simp only [List.mem_append, or_imp, forall_and] at fa fm
  have kc : ∀ r, EE owned c false v r → r = some v ∧ Rel owned g v m1 := by
    intro r h
    obtain ⟨v1, rfl, hr1⟩ := chkE_sound g c false v m m1 r hr sc hc h
    obtain ⟨p, hp⟩ := evalE_frame v c false [] v1 fa.1 fm.1 h
    have hl := hr.length
    have hl1 := hr1.length
    rw [hp, List.length_append] at hl1
    have : p = [] := List.length_eq_zero_iff.1 (by omega)
    subst this
    rw [List.nil_append] at hp
    subst hp
    exact ⟨rfl, hr1⟩
  have kb : ∀ o v', Exec owned b v o v' → Spec.pop v v' = v := by
    intro o v' h
    obtain ⟨p, hp⟩ := execS_frame v b [] o v' fa.2 fm.2 h
    rw [hp, Spec.pop, List.length_append]
    have : p.length + v.length - v.length = p.length := by omega
    rw [this, List.drop_left]
  generalize hs : Stmt.whil c b = s at he
  generalize hv : v = w at he
  induction he using Exec.rec (motive_2 := fun _ _ _ _ _ => True)
    (motive_3 := fun _ _ _ _ _ => True) <;> try trivial
  all_goals first | (cases hs; done) | skip
  case whilBad h => cases hs; subst hv; exact absurd (kc _ h).1 (by simp)
  case whilEnd h =>
    cases hs
    subst hv
    have := (kc _ h).1
    injection this with this
    exact ⟨by simp, this⟩
  case whilNext h1 h2 h3 h4 ih2 ih4 =>
    cases hs
    subst hv
    have h5 := kc _ h1
    have h6 := h5.1
    injection h6 with h6
    subst h6
    have h7 := kb _ _ h2
    have := ih4 rfl h7.symm
    exact ⟨this.1, this.2.trans h7⟩
  case whilBrk h1 h2 ih2 =>
    cases hs
    subst hv
    have h6 := (kc _ h1).1
    injection h6 with h6
    subst h6
    exact ⟨by simp, kb _ _ h2⟩
  case whilOut h1 h2 h3 ih2 =>
    cases hs
    subst hv
    have h5 := kc _ h1
    have h6 := h5.1
    injection h6 with h6
    subst h6
    exact ⟨ih _ _ _ h5.2 h2, kb _ _ h2⟩

mutual
/-- Statements accepted by the check read no moved-out variable. -/
theorem chkS_sound (g : Scope) (s : Stmt) (v : Env) (m : MS) (g' : Scope) (m' : MS) (o : Out)
    (v' : Env) (hr : Rel owned g v m) (hs : safeS owned g s = true)
    (hc : chkS owned g s m = some (g', m')) (he : Exec owned s v o v') :
    o ≠ .bad ∧ (o = .normal → Rel owned (declared s ++ g) v' m') := by
  cases s with
  | expr e =>
    simp only [safeS] at hs
    rw [chkS, Option.map_eq_some_iff] at hc
    obtain ⟨m1, h1, h2⟩ := hc
    injection h2 with _ h2
    subst h2
    cases he with
    | exprBad _ _ h =>
      obtain ⟨_, hh, _⟩ := chkE_sound g e false v m m1 _ hr hs h1 h
      cases hh
    | expr _ _ _ h =>
      obtain ⟨_, hh, hr1⟩ := chkE_sound g e false v m m1 _ hr hs h1 h
      cases hh
      exact ⟨by simp, fun _ => hr1⟩
  | decl x e =>
    simp only [safeS, Bool.and_eq_true, Option.isNone_iff_eq_none] at hs
    rw [chkS, Option.map_eq_some_iff] at hc
    obtain ⟨m1, h1, h2⟩ := hc
    injection h2 with _ h2
    subst h2
    cases he with
    | declBad _ _ _ h =>
      obtain ⟨_, hh, _⟩ := chkE_sound g e true v m m1 _ hr hs.1 h1 h
      cases hh
    | decl _ _ _ v1 h =>
      obtain ⟨v1', hh, hr1⟩ := chkE_sound g e true v m m1 _ hr hs.1 h1 h
      cases hh
      refine ⟨by simp, fun _ => ⟨?_, ?_, ?_⟩⟩
      · simp [declared, hr1.names]
      · simp only [List.map_cons, List.nodup_cons]
        refine ⟨?_, hr1.nodup⟩
        rw [hr1.names]
        exact lookup_none hs.2
      · intro y hy
        rcases List.mem_cons.1 hy with hy | hy
        · cases hy
        · exact hr1.mv y hy
  | ret e =>
    simp only [safeS] at hs
    rw [chkS, Option.map_eq_some_iff] at hc
    obtain ⟨m1, h1, h2⟩ := hc
    cases he with
    | retBad _ _ h =>
      obtain ⟨_, hh, _⟩ := chkE_sound g e true v m m1 _ hr hs h1 h
      cases hh
    | ret _ _ _ h => exact ⟨by simp, by simp⟩
  | brk => cases he; exact ⟨by simp, by simp⟩
  | cont => cases he; exact ⟨by simp, by simp⟩
  | block b =>
    simp only [safeS] at hs
    rw [chkS, Option.map_eq_some_iff] at hc
    obtain ⟨m1, h1, h2⟩ := hc
    injection h2 with _ h2
    subst h2
    cases he with
    | block _ _ _ v1 h =>
      obtain ⟨ho, hn⟩ := chkL_sound g b v m m1 o v1 hr hs h1 h
      refine ⟨ho, fun h => ?_⟩
      obtain ⟨d, hd⟩ := hn h
      exact hr.pop hd
  | ite c t e =>
    simp only [safeS, Bool.and_eq_true] at hs
    rw [chkS, Option.bind_eq_some_iff] at hc
    obtain ⟨m1, h1, hc⟩ := hc
    rw [Option.bind_eq_some_iff] at hc
    obtain ⟨⟨g2, m2⟩, h2, hc⟩ := hc
    simp only [Option.map_eq_some_iff] at hc
    obtain ⟨⟨g3, m3⟩, h3, hc⟩ := hc
    injection hc with _ hc
    subst hc
    cases he with
    | iteBad _ _ _ _ h =>
      obtain ⟨_, hh, _⟩ := chkE_sound g c false v m m1 _ hr hs.1.1 h1 h
      cases hh
    | iteT _ _ _ _ v1 _ v2 hcc h =>
      obtain ⟨_, hh, hr1⟩ := chkE_sound g c false v m m1 _ hr hs.1.1 h1 hcc
      cases hh
      obtain ⟨ho, hn⟩ := chkS_sound g t v1 m1 g2 m2 o v2 hr1 hs.1.2 h2 h
      exact ⟨ho, fun h => (hr.pop (hn h)).mono fun x _ hx => merge_left _ _ _ _ hx⟩
    | iteE _ _ _ _ v1 _ v2 hcc h =>
      obtain ⟨_, hh, hr1⟩ := chkE_sound g c false v m m1 _ hr hs.1.1 h1 hcc
      cases hh
      obtain ⟨ho, hn⟩ := chkS_sound g e v1 m1 g3 m3 o v2 hr1 hs.2 h3 h
      exact ⟨ho, fun h => (hr.pop (hn h)).mono fun x _ hx => merge_right _ _ _ _ hx⟩
  | ifOnly c t =>
    simp only [safeS, Bool.and_eq_true] at hs
    rw [chkS, Option.bind_eq_some_iff] at hc
    obtain ⟨m1, h1, hc⟩ := hc
    rw [Option.map_eq_some_iff] at hc
    obtain ⟨⟨g2, m2⟩, h2, hc⟩ := hc
    injection hc with _ hc
    subst hc
    cases he with
    | ifBad _ _ _ h =>
      obtain ⟨_, hh, _⟩ := chkE_sound g c false v m m1 _ hr hs.1 h1 h
      cases hh
    | ifT _ _ _ v1 _ v2 hcc h =>
      obtain ⟨_, hh, hr1⟩ := chkE_sound g c false v m m1 _ hr hs.1 h1 hcc
      cases hh
      obtain ⟨ho, hn⟩ := chkS_sound g t v1 m1 g2 m2 o v2 hr1 hs.2 h2 h
      exact ⟨ho, fun h => (hr.pop (hn h)).mono fun x _ hx => merge_left _ _ _ _ hx⟩
    | ifF _ _ _ v1 hcc =>
      obtain ⟨_, hh, hr1⟩ := chkE_sound g c false v m m1 _ hr hs.1 h1 hcc
      cases hh
      exact ⟨by simp, fun _ => hr1.mono fun x _ hx => merge_target _ _ _ _ hx⟩
  | cond1 c b =>
    simp only [safeS, Bool.and_eq_true] at hs
    rw [chkS, Option.bind_eq_some_iff] at hc
    obtain ⟨m1, h1, hc⟩ := hc
    rw [Option.map_eq_some_iff] at hc
    obtain ⟨⟨g2, m2⟩, h2, hc⟩ := hc
    injection hc with _ hc
    subst hc
    cases he with
    | condBad _ _ _ h =>
      obtain ⟨_, hh, _⟩ := chkE_sound g c false v m m1 _ hr hs.1.1 h1 h
      cases hh
    | condT _ _ _ v1 _ v2 hcc h =>
      obtain ⟨_, hh, hr1⟩ := chkE_sound g c false v m m1 _ hr hs.1.1 h1 hcc
      cases hh
      obtain ⟨ho, hn⟩ := chkS_sound g b v1 m1 g2 m2 o v2 hr1 hs.1.2 h2 h
      exact ⟨ho, fun h => hr.pop (hn h)⟩
    | condF _ _ _ v1 hcc =>
      obtain ⟨_, hh, hr1⟩ := chkE_sound g c false v m m1 _ hr hs.1.1 h1 hcc
      cases hh
      exact ⟨by simp, fun _ => hr1.mono fun x hl hx =>
        chkS_mono g b m1 (g2, m2) h2 x (apart_not hs.2 hl) hx⟩
  | mtch e a =>
    simp only [safeS, Bool.and_eq_true] at hs
    rw [chkS, Option.bind_eq_some_iff] at hc
    obtain ⟨m1, h1, hc⟩ := hc
    rw [Option.map_eq_some_iff] at hc
    obtain ⟨m2, h2, hc⟩ := hc
    injection hc with _ hc
    subst hc
    cases he with
    | mtchBad _ _ _ h =>
      obtain ⟨_, hh, _⟩ := chkE_sound g e false v m m1 _ hr hs.1.1 h1 h
      cases hh
    | mtch _ _ _ v1 _ _ hcc h =>
      obtain ⟨_, hh, hr1⟩ := chkE_sound g e false v m m1 _ hr hs.1.1 h1 hcc
      cases hh
      exact chkA_sound g a v1 m1 m2 o v' hr1 hs.1.2 hs.2 h2 h
  | whil c b =>
    simp only [safeS, Bool.and_eq_true] at hs
    obtain ⟨⟨⟨sc, sb⟩, ha⟩, hm⟩ := hs
    rw [chkS, Option.bind_eq_some_iff] at hc
    obtain ⟨m1, h1, hc⟩ := hc
    rw [Option.map_eq_some_iff] at hc
    obtain ⟨⟨g2, m2⟩, h2, hc⟩ := hc
    injection hc with _ hc
    subst hc
    obtain ⟨ho, hv⟩ := while_sound g c b v m m1 hr sc h1 ha hm
      (fun v o v' hr h => (chkS_sound g b v m1 g2 m2 o v' hr sb h2 h).1) o v' he
    subst hv
    refine ⟨ho, fun _ => hr.mono fun x hl hx => ?_⟩
    have hn := apart_not ha hl
    simp only [List.mem_append, not_or] at hn
    exact chkS_mono g b m1 (g2, m2) h2 x hn.2 (chkE_mono g false c m m1 h1 x hn.1 hx)
  | rng b => simp [safeS] at hs
theorem chkL_sound (g : Scope) (b : Stmts) (v : Env) (m m' : MS) (o : Out) (v' : Env)
    (hr : Rel owned g v m) (hs : safeL owned g b = true)
    (hc : chkL owned g b m = some m') (he : ExecL owned b v o v') :
    o ≠ .bad ∧ (o = .normal → ∃ d, Rel owned (d ++ g) v' m') := by
  cases b with
  | nil =>
    simp only [chkL, Option.some.injEq] at hc
    subst hc
    cases he
    exact ⟨by simp, fun _ => ⟨[], hr⟩⟩
  | cons s r =>
    simp only [safeL, Bool.and_eq_true] at hs
    rw [chkL, Option.bind_eq_some_iff] at hc
    obtain ⟨⟨g1, m1⟩, h1, h2⟩ := hc
    have hg : g1 = declared s ++ g := chkS_scope g s m _ h1
    cases he with
    | next _ _ _ v1 _ _ ha hb =>
      have hn := (chkS_sound g s v m g1 m1 _ v1 hr hs.1 h1 ha).2 rfl
      subst hg
      obtain ⟨ho, hd⟩ := chkL_sound _ r v1 m1 m' o v' hn hs.2 h2 hb
      refine ⟨ho, fun h => ?_⟩
      obtain ⟨d, hd⟩ := hd h
      exact ⟨d ++ declared s, by rw [List.append_assoc]; exact hd⟩
    | stop _ _ _ _ _ ha hne =>
      exact ⟨(chkS_sound g s v m g1 m1 o v' hr hs.1 h1 ha).1, fun h => absurd h hne⟩
theorem chkA_sound (g : Scope) (a : Arms) (v : Env) (m m' : MS) (o : Out) (v' : Env)
    (hr : Rel owned g v m) (hs : safeA owned g a = true) (ha : apart (asgA a) g = true)
    (hc : chkA owned g a m = some m') (he : ExecA owned a v o v') :
    o ≠ .bad ∧ (o = .normal → Rel owned g v' m') := by
  cases a with
  | nil =>
    simp only [chkA, Option.some.injEq] at hc
    subst hc
    cases he
    exact ⟨by simp, fun _ => hr⟩
  | cons b r =>
    simp only [safeA, Bool.and_eq_true] at hs
    rw [chkA, Option.bind_eq_some_iff] at hc
    obtain ⟨⟨g1, m1⟩, h1, h2⟩ := hc
    have hboth : apart (asgS b) g = true ∧ apart (asgA r) g = true := by
      simp only [asgA, apart, List.all_append, Bool.and_eq_true] at ha
      exact ha
    cases he with
    | take _ _ _ _ v1 h =>
      obtain ⟨ho, hn⟩ := chkS_sound g b v m g1 m1 o v1 hr hs.1 h1 h
      exact ⟨ho, fun h => (hr.pop (hn h)).mono fun x hl hx =>
        chkA_mono g r m1 m' h2 x (apart_not hboth.2 hl) hx⟩
    | skip _ _ _ _ _ h =>
      exact chkA_sound g r v m1 m' o v' (hr.mono fun x hl hx =>
        chkS_mono g b m (g1, m1) h1 x (apart_not hboth.1 hl) hx) hs.2 hboth.2 h2 h
end

end

/-- **C24** (partial).  A function within the guard that the check accepts never reads a
variable whose value has been moved out, whatever way its tests and loops go.  Outside the
guard the statement fails: see the `_violated` theorems below, one for each restriction. -/
theorem no_use_after_move_partial (owned : String → Bool) (params : List String) (body : Stmt)
    (hd : params.Nodup) (hg : safeS owned (params.map (·, true)) body = true)
    (ha : accepts owned params body = true) (o : Out) (v' : Env)
    (he : Exec owned body (params.map (·, false)) o v') : o ≠ .bad := by
  rw [accepts, Option.isSome_iff_exists] at ha
  obtain ⟨⟨g', m'⟩, hc⟩ := ha
  refine (chkS_sound _ body _ [] g' m' o v' ⟨?_, ?_, ?_⟩ hg hc he).1
  · simp [List.map_map, Function.comp_def]
  · simpa [List.map_map, Function.comp_def] using hd
  · intro x hx
    simp at hx

/-- The first letter decides: names in `o…` have a type that owns resources. -/
def own (x : String) : Bool := x == "o" || x == "p" || x == "q"

/-- `consume(x)` -/
def consume (x : String) : Stmt := .expr (.call .lit (.cons (.var x) .nil))
/-- `print(x.len)` -/
def look (x : String) : Stmt := .expr (.un (.var x))
/-- `let x = make();` -/
def make (x : String) : Stmt := .decl x (.call .lit .nil)
/-- `x = make();` -/
def remake (x : String) : Stmt := .expr (.assign x (.call .lit .nil))
/-- A block. -/
def blk (l : List Stmt) : Stmt := .block (l.foldr .cons .nil)

/-- A function with a branch that moves and one that does not, a re-initialisation, a match
and a loop with its own variable: inside the guard and accepted. -/
example :
    let f := blk [make "o", make "p", .ite (.var "c") (blk [consume "o"]) (blk [look "o"]),
      remake "o", look "o",
      .mtch (.var "c") (.cons (blk [consume "o"]) (.cons (blk [look "p"]) .nil)),
      .whil (.var "c") (blk [make "q", .ifOnly (.var "c") (blk [look "q", .brk]), consume "q"]),
      .decl "r" (.un (.var "p")), .ret (.var "p")]
    safeS own [("c", true)] f = true ∧ accepts own ["c"] f = true := by decide +kernel

/-- The same with a use after the branch that may have moved is rejected. -/
example : accepts own ["c"]
    (blk [make "o", .ite (.var "c") (blk [consume "o"]) (blk [look "o"]), look "o"]) = false := by
  decide +kernel

section
open Spec.EE Spec.EL Spec.Exec Spec.ExecL Spec.ExecA

theorem consume_ok (x : String) (v : Env) (h : moved v x = false) :
    Exec own (consume x) v .normal (if own x then setV v x true else v) := by
  refine Exec.expr _ _ _ (EE.call _ _ _ _ v _ (EE.lit _ _) (EL.cons _ _ _ _ _ (EE.varOk _ _ _ h) ?_))
  simp only [Bool.true_and]
  exact EL.nil _

theorem consume_bad (x : String) (v : Env) (h : moved v x = true) :
    Exec own (consume x) v .bad v :=
  Exec.exprBad _ _ (EE.call _ _ _ _ v _ (EE.lit _ _) (EL.bad _ _ _ (EE.varBad _ _ _ h)))

theorem look_bad (x : String) (v : Env) (h : moved v x = true) : Exec own (look x) v .bad v :=
  Exec.exprBad _ _ (EE.un _ _ _ _ (EE.varBad _ _ _ h))

theorem make_ok (x : String) (v : Env) : Exec own (make x) v .normal ((x, false) :: v) :=
  Exec.decl _ _ _ _ (EE.call _ _ _ _ v _ (EE.lit _ _) (EL.nil _))

theorem remake_ok (x : String) (v : Env) : Exec own (remake x) v .normal (setV v x false) :=
  Exec.expr _ _ _ (EE.assign _ _ _ _ _ (EE.call _ _ _ _ v _ (EE.lit _ _) (EL.nil _)))

theorem blk_bad1 {s : Stmt} {v v1 : Env} (h : Exec own s v .bad v1) (r : List Stmt) :
    ExecL own ((s :: r).foldr .cons .nil) v .bad v1 :=
  ExecL.stop _ _ _ _ _ h (by simp)

/-- The full statement fails for a loop: `let o = make(); while c { consume(o); }` is accepted
and its second round reads a moved-out variable. -/
theorem loop_violated :
    ∃ f, accepts own ["c"] f = true ∧ ∃ v', Exec own f [("c", false)] .bad v' := by
  refine ⟨blk [make "o", .whil (.var "c") (blk [consume "o"])], by decide +kernel, _,
    Exec.block _ _ _ _ (ExecL.next _ _ _ _ _ _ (make_ok _ _) (ExecL.stop _ _ _ _ _
      (Exec.whilNext _ _ _ [("o", false), ("c", false)] _ [("o", true), ("c", false)] _ _
        (EE.varOk _ _ _ (by decide +kernel)) (Exec.block _ _ _ [("o", true), ("c", false)]
          (ExecL.next _ _ _ _ _ _ (consume_ok _ _ (by decide +kernel)) (ExecL.nil _)))
        (Or.inl rfl)
        (Exec.whilOut _ _ _ [("o", true), ("c", false)] _ [("o", true), ("c", false)]
          (EE.varOk _ _ _ (by decide +kernel))
          (Exec.block _ _ _ [("o", true), ("c", false)] (blk_bad1 (consume_bad _ _ (by decide +kernel)) []))
          (Or.inr rfl))) (by simp)))⟩

/-- It fails for a re-initialisation inside a loop that may not run:
`consume(o); while c { o = make(); } look(o);`. -/
theorem loop_remake_violated :
    ∃ f, accepts own ["c"] f = true ∧ ∃ v', Exec own f [("c", false)] .bad v' := by
  refine ⟨blk [make "o", consume "o", .whil (.var "c") (blk [remake "o"]), look "o"],
    by decide +kernel, _,
    Exec.block _ _ _ _ (ExecL.next _ _ _ _ _ _ (make_ok _ _) (ExecL.next _ _ _ _ _ _
      (consume_ok _ _ (by decide +kernel)) (ExecL.next _ _ _ _ _ _
        (Exec.whilEnd _ _ _ _ (EE.varOk _ _ _ (by decide +kernel)))
        (blk_bad1 (look_bad _ _ (by decide +kernel)) []))))⟩

/-- It fails for a re-initialisation inside `unless` or `guard`. -/
theorem unless_violated :
    ∃ f, accepts own ["c"] f = true ∧ ∃ v', Exec own f [("c", false)] .bad v' := by
  refine ⟨blk [make "o", consume "o", .cond1 (.var "c") (blk [remake "o"]), look "o"],
    by decide +kernel, _,
    Exec.block _ _ _ _ (ExecL.next _ _ _ _ _ _ (make_ok _ _) (ExecL.next _ _ _ _ _ _
      (consume_ok _ _ (by decide +kernel)) (ExecL.next _ _ _ _ _ _
        (Exec.condF _ _ _ _ (EE.varOk _ _ _ (by decide +kernel)))
        (blk_bad1 (look_bad _ _ (by decide +kernel)) []))))⟩

/-- It fails for a match: one arm moves, a later arm re-initialises, and the variable counts
as valid afterwards. -/
theorem match_violated :
    ∃ f, accepts own ["c"] f = true ∧ ∃ v', Exec own f [("c", false)] .bad v' := by
  refine ⟨blk [make "o", .mtch (.var "c") (.cons (blk [consume "o"]) (.cons (blk [remake "o"]) .nil)),
      look "o"],
    by decide +kernel, _,
    Exec.block _ _ _ _ (ExecL.next _ _ _ _ _ _ (make_ok _ _) (ExecL.next _ _ _
      [("o", true), ("c", false)] _ _
      (Exec.mtch _ _ _ _ _ _ (EE.varOk _ _ _ (by decide +kernel)) (ExecA.take _ _ _ _
        [("o", true), ("c", false)]
        (Exec.block _ _ _ [("o", true), ("c", false)]
          (ExecL.next _ _ _ _ _ _ (consume_ok _ _ (by decide +kernel)) (ExecL.nil _)))))
      (blk_bad1 (look_bad _ _ (by decide +kernel)) [])))⟩

/-- It fails for a range loop, whose body is not looked at. -/
theorem range_loop_violated :
    ∃ f, accepts own ["c"] f = true ∧ ∃ v', Exec own f [("c", false)] .bad v' := by
  refine ⟨blk [make "o", consume "o", .rng (blk [look "o"])], by decide +kernel, _,
    Exec.block _ _ _ _ (ExecL.next _ _ _ _ _ _ (make_ok _ _) (ExecL.next _ _ _ _ _ _
      (consume_ok _ _ (by decide +kernel)) (blk_bad1 (Exec.rngOut _ _ _ _
        (Exec.block _ _ _ _ (blk_bad1 (look_bad _ _ (by decide +kernel)) [])) (Or.inr rfl)) [])))⟩

/-- It fails for function parameters, which are never marked as moved. -/
theorem param_violated :
    ∃ f, accepts own ["o"] f = true ∧ ∃ v', Exec own f [("o", false)] .bad v' := by
  refine ⟨blk [consume "o", look "o"], by decide +kernel, _,
    Exec.block _ _ _ _ (ExecL.next _ _ _ _ _ _ (consume_ok _ _ (by decide +kernel))
      (blk_bad1 (look_bad _ _ (by decide +kernel)) []))⟩

/-- It fails when an inner variable of the same name is assigned: the outer one counts as
valid again. -/
theorem shadow_violated :
    ∃ f, accepts own [] f = true ∧ ∃ v', Exec own f [] .bad v' := by
  refine ⟨blk [make "o", consume "o", blk [make "o", remake "o"], look "o"], by decide +kernel, _,
    Exec.block _ _ _ _ (ExecL.next _ _ _ _ _ _ (make_ok _ _) (ExecL.next _ _ _ _ _ _
      (consume_ok _ _ (by decide +kernel)) (ExecL.next _ _ _ [("o", true)] _ _
        (Exec.block _ _ _ [("o", false), ("o", true)] (ExecL.next _ _ _ _ _ _ (make_ok _ _)
          (ExecL.next _ _ _ _ _ _ (remake_ok _ _) (ExecL.nil _))))
        (blk_bad1 (look_bad _ _ (by decide +kernel)) []))))⟩

/-- It fails for array literals and for `? :`, which take a value over without marking it. -/
theorem literal_violated :
    (∃ f, accepts own [] f = true ∧ ∃ v', Exec own f [] .bad v') ∧
    (∃ f, accepts own ["c"] f = true ∧ ∃ v', Exec own f [("c", false)] .bad v') := by
  constructor
  · refine ⟨blk [make "o", .decl "a" (.arr (.cons (.var "o") .nil)), look "o"], by decide +kernel, _,
      Exec.block _ _ _ _ (ExecL.next _ _ _ _ _ _ (make_ok _ _) (ExecL.next _ _ _
        [("a", false), ("o", true)] _ _
        (Exec.decl _ _ _ _ (EE.arr _ _ _ _ (EL.cons _ _ _ _ _
          (EE.varOk _ _ _ (by decide +kernel)) (EL.nil _))))
        (blk_bad1 (look_bad _ _ (by decide +kernel)) [])))⟩
  · refine ⟨blk [make "o", make "p", .decl "q" (.tern (.var "c") (.var "o") (.var "p")), look "o"],
      by decide +kernel, _,
      Exec.block _ _ _ _ (ExecL.next _ _ _ _ _ _ (make_ok _ _) (ExecL.next _ _ _ _ _ _ (make_ok _ _)
        (ExecL.next _ _ _ [("q", false), ("p", false), ("o", true), ("c", false)] _ _
        (Exec.decl _ _ _ _ (EE.ternT _ _ _ _ _ _ _ (EE.varOk _ _ _ (by decide +kernel))
          (EE.varOk _ _ _ (by decide +kernel))))
        (blk_bad1 (look_bad _ _ (by decide +kernel)) []))))⟩

/-- It fails inside the place of an assignment: `consume(o); a[f(o)] = 1;`. -/
theorem place_violated :
    ∃ f, accepts own [] f = true ∧ ∃ v', Exec own f [] .bad v' := by
  refine ⟨blk [make "o", consume "o", .expr (.store "a" (.un (.var "o")) .lit)], by decide +kernel, _,
    Exec.block _ _ _ _ (ExecL.next _ _ _ _ _ _ (make_ok _ _) (ExecL.next _ _ _ _ _ _
      (consume_ok _ _ (by decide +kernel)) (blk_bad1 (Exec.exprBad _ _ (EE.storeBadI _ _ _ _ _
        (EE.un _ _ _ _ (EE.varBad _ _ _ (by decide +kernel))))) [])))⟩

/-- It fails when the skipped operand of `&&` re-initialises. -/
theorem short_circuit_violated :
    ∃ f, accepts own ["c"] f = true ∧ ∃ v', Exec own f [("c", false)] .bad v' := by
  refine ⟨blk [make "o", consume "o", .expr (.sc (.var "c") (.assign "o" (.call .lit .nil))), look "o"],
    by decide +kernel, _,
    Exec.block _ _ _ _ (ExecL.next _ _ _ _ _ _ (make_ok _ _) (ExecL.next _ _ _ _ _ _
      (consume_ok _ _ (by decide +kernel)) (ExecL.next _ _ _ _ _ _
        (Exec.expr _ _ _ (EE.scStop _ _ _ _ _ (EE.varOk _ _ _ (by decide +kernel))))
        (blk_bad1 (look_bad _ _ (by decide +kernel)) []))))⟩

end

end Verif.Move
