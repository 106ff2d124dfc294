import Verif.TypeCheck.Lemmas

/-!
# The type checker: properties
-/

namespace Verif.TypeCheck

open Spec

/-- the checker's scopes and the declared types: the type of a local variable is in both, a parameter has
none in the scopes -/
def Agree (E : Env) (Γ : Types) : Prop :=
  ∀ x t, Γ.lookup x = some t → Known t ∧ (E.lookup x = some (some t) ∨ E.lookup x = some none)

theorem err_zero {b : Bool} (h : err b = 0) : b = false := by
  cases b
  · rfl
  · cases h

theorem need_zero {t v : Ty} (ht : Known t) (hv : Known v) (h : need (some t) (some v) = 0) : Fits t v := by
  have := err_zero h
  rw [← compatible_iff ht hv]
  simpa using this

theorem need_fits {t v : Ty} (ht : Known t) (hv : Known v) (h : Fits t v) : need (some t) (some v) = 0 := by
  unfold need
  simp [err, (compatible_iff ht hv).2 h]

theorem badCond_zero {t : Ty} (h : badCond true (some t) = 0) : Truthy t := by
  have := err_zero h
  unfold Truthy
  cases t with
  | ptr i => exact Or.inr .ptr
  | string => exact Or.inr .string
  | int k => exact Or.inl trivial
  | char => exact Or.inl trivial
  | struct n => exact Or.inl ((isInteger_iff _).1 (by simpa using this))
  | _ => simp [isInteger] at this

theorem badCond_false {t : Ty} (h : badCond false (some t) = 0) : Truthy t := by
  have := err_zero h
  unfold Truthy
  cases t with
  | ptr i => exact Or.inr .ptr
  | string => exact Or.inr .string
  | int k => exact Or.inl trivial
  | char => exact Or.inl trivial
  | struct n => exact Or.inl ((isInteger_iff _).1 (by simpa using this))
  | _ => simp [isInteger] at this

theorem truthy_cond {t : Ty} (h : Truthy t) : badCond true (some t) = 0 := by
  rcases h with h | h
  · simp [badCond, (isInteger_iff t).2 h, err]
  · cases h <;> rfl

theorem truthy_cond' {t : Ty} (h : Truthy t) (hs : t ≠ .string) : badCond false (some t) = 0 := by
  rcases h with h | h
  · simp [badCond, (isInteger_iff t).2 h, err]
  · cases h
    · rfl
    · exact absurd rfl hs

theorem required_eq (s : Sig) : s.required = (s.params.filter fun q => !q.2).length := by
  unfold Sig.required
  rw [List.countP_eq_length_filter]

/-- the type a binary operator gives is that of the rules -/
theorem binary_sound {σ : Ctx} {Γ : Types} {op : BOp} {a b : Expr} {s t : Ty} {pre : Option Ty}
    (ha : Typed σ Γ a s) (hb : Typed σ Γ b t) (hs : Known s) (ht : Known t)
    (hm : op = .mod → ¬ Flt s ∧ ¬ Flt t) (h : (binary op b (some s) (some t) pre).1 = 0) :
    ∃ u, (binary op b (some s) (some t) pre).2 = some u ∧ Typed σ Γ (.bin op a b pre) u ∧ Known u := by
  have har : op ∈ [.add, .sub, .mul, .div, .mod] →
      (err ((op = .div || op = .mod) && isZero b) + (arith op s t pre).1 = 0) →
      ∃ u, (arith op s t pre).2 = some u ∧ Typed σ Γ (.bin op a b pre) u ∧ Known u := by
    intro hop h
    obtain ⟨u, h1, h2, h3⟩ := arith_sound (pre := pre) hs ht hm (by omega)
    refine ⟨u, h1, .arith hop ha hb h2 ?_, h3⟩
    intro ho hz
    have h0 := err_zero (show err ((op = .div || op = .mod) && isZero b) = 0 by omega)
    rw [(isZero_iff b).2 hz] at h0
    rcases ho with e | e <;> subst e <;> simp at h0
  have hcmp : op ∈ [.eq, .ne, .lt, .gt, .le, .ge] →
      err (!typeEq s t && (!numeric s || !numeric t) && !(s = .unknown || t = .unknown)) = 0 →
      Typed σ Γ (.bin op a b pre) (.int .bool) := by
    intro hop h
    refine .compare hop ha hb ?_
    have h0 := err_zero h
    have hsu : s ≠ .unknown := by rintro rfl; exact hs
    have htu : t ≠ .unknown := by rintro rfl; exact ht
    by_cases he : typeEq s t = true
    · exact Or.inl (typeEq_same s t hs ht he)
    · simp [he, hsu, htu] at h0
      exact Or.inr ⟨(numeric_iff s).1 h0.1, (numeric_iff t).1 h0.2⟩
  have hbit : op ∈ [.band, .bor, .bxor, .shl, .shr] →
      (if isInteger s && isInteger t then (err ((op = .shl || op = .shr) && wideShift (some s) b), some s)
        else (err ((op = .shl || op = .shr) && wideShift (some s) b) + 1, pre)).1 = 0 →
      (if isInteger s && isInteger t then (err ((op = .shl || op = .shr) && wideShift (some s) b), some s)
        else (err ((op = .shl || op = .shr) && wideShift (some s) b) + 1, pre)).2 = some s ∧
      Typed σ Γ (.bin op a b pre) s := by
    intro hop h
    by_cases hi : (isInteger s && isInteger t) = true
    · rw [if_pos hi] at h ⊢
      simp only [Bool.and_eq_true, isInteger_iff] at hi
      refine ⟨rfl, .bits hop ha hb hi.1 hi.2 ?_⟩
      intro ho hz
      have h0 := err_zero h
      rw [(wideShift_iff s b).2 hz] at h0
      rcases ho with e | e <;> subst e <;> simp at h0
    · rw [if_neg hi] at h
      simp at h
  cases op with
  | add => exact har (by simp) h
  | sub => exact har (by simp) h
  | mul => exact har (by simp) h
  | div => exact har (by simp) h
  | mod => exact har (by simp) h
  | eq => exact ⟨_, rfl, hcmp (by simp) h, trivial⟩
  | ne => exact ⟨_, rfl, hcmp (by simp) h, trivial⟩
  | lt => exact ⟨_, rfl, hcmp (by simp) h, trivial⟩
  | gt => exact ⟨_, rfl, hcmp (by simp) h, trivial⟩
  | le => exact ⟨_, rfl, hcmp (by simp) h, trivial⟩
  | ge => exact ⟨_, rfl, hcmp (by simp) h, trivial⟩
  | and => exact ⟨_, rfl, .logic (by simp) ha hb, trivial⟩
  | or => exact ⟨_, rfl, .logic (by simp) ha hb, trivial⟩
  | band => obtain ⟨h1, h2⟩ := hbit (by simp) h; exact ⟨s, h1, h2, hs⟩
  | bor => obtain ⟨h1, h2⟩ := hbit (by simp) h; exact ⟨s, h1, h2, hs⟩
  | bxor => obtain ⟨h1, h2⟩ := hbit (by simp) h; exact ⟨s, h1, h2, hs⟩
  | shl => obtain ⟨h1, h2⟩ := hbit (by simp) h; exact ⟨s, h1, h2, hs⟩
  | shr => obtain ⟨h1, h2⟩ := hbit (by simp) h; exact ⟨s, h1, h2, hs⟩

mutual
/-- an expression without an error has the type the checker gives it -/
theorem check_sound {σ : Ctx} {E : Env} {Γ : Types} (hσ : KnownCtx σ) (hE : Agree E Γ) :
    ∀ e : Expr, Good σ Γ e → (check σ E e).1 = 0 →
      ∃ t, (check σ E e).2 = some t ∧ Typed σ Γ e t ∧ Known t
  | .int _, _, _ => ⟨_, rfl, .int, trivial⟩
  | .flt _, _, _ => ⟨_, rfl, .flt, trivial⟩
  | .str, _, _ => ⟨_, rfl, .str, trivial⟩
  | .chr, _, _ => ⟨_, rfl, .chr, trivial⟩
  | .var x pre, hg, _ => by
      obtain ⟨t, h1, h2⟩ := hg
      obtain ⟨hk, hl⟩ := hE x t h1
      refine ⟨t, ?_, .var h1, hk⟩
      subst h2
      rcases hl with hl | hl <;> simp [check, hl]
  | .un op e pre, hg, h => by
      have h' : (check σ E e).1 + (unary op (check σ E e).2 pre).1 = 0 := h
      obtain ⟨t, h1, h2, h3⟩ := check_sound hσ hE e hg (by omega)
      rw [h1] at h'
      show ∃ u, (unary op (check σ E e).2 pre).2 = some u ∧ _
      rw [h1]
      cases op with
      | not => exact ⟨_, rfl, .not h2, trivial⟩
      | neg =>
          simp only [unary] at h' ⊢
          by_cases hn : numeric t = true
          · rw [if_pos hn]
            exact ⟨t, rfl, .neg h2 ((numeric_iff t).1 hn), h3⟩
          · rw [if_neg hn] at h'
            simp at h'
      | bnot =>
          simp only [unary] at h' ⊢
          by_cases hn : isInteger t = true
          · rw [if_pos hn]
            exact ⟨t, rfl, .bnot h2 ((isInteger_iff t).1 hn), h3⟩
          · rw [if_neg hn] at h'
            simp at h'
      | deref =>
          cases t with
          | unknown => exact h3.elim
          | ptr i => exact ⟨i, rfl, .deref h2, h3⟩
          | string => exact ⟨.char, rfl, .first h2, trivial⟩
          | _ => simp [unary] at h'
  | .bin op a b pre, hg, h => by
      have h' : (check σ E a).1 + (check σ E b).1 + (binary op b (check σ E a).2 (check σ E b).2 pre).1 = 0 := h
      obtain ⟨s, a1, a2, a3⟩ := check_sound hσ hE a hg.1 (by omega)
      obtain ⟨t, b1, b2, b3⟩ := check_sound hσ hE b hg.2.1 (by omega)
      rw [a1, b1] at h'
      show ∃ u, (binary op b (check σ E a).2 (check σ E b).2 pre).2 = some u ∧ _
      rw [a1, b1]
      exact binary_sound a2 b2 a3 b3
        (fun e => ⟨hg.2.2 e s (Or.inl a2), hg.2.2 e t (Or.inr b2)⟩) (by omega)
  | .assign a b, hg, h => by
      have h' : (check σ E a).1 + (check σ E b).1 + need (check σ E a).2 (check σ E b).2 = 0 := h
      obtain ⟨s, a1, a2, a3⟩ := check_sound hσ hE a hg.1 (by omega)
      obtain ⟨t, b1, b2, b3⟩ := check_sound hσ hE b hg.2 (by omega)
      rw [a1, b1] at h'
      exact ⟨s, a1, .assign a2 b2 (need_zero a3 b3 (by omega)), a3⟩
  | .call f as pre, hg, h => by
      obtain ⟨hg, s, hs, hp⟩ := hg
      simp only [check, hs] at h ⊢
      have ha := args_sound hσ hE as (s.params.map Prod.fst) hg (by
        intro t ht
        obtain ⟨p, hp, e⟩ := List.mem_map.1 ht
        exact e ▸ (hσ.params f s hs).1 p hp) (by omega)
      have hc := err_zero (show err (badCount s as.length) = 0 by omega)
      unfold badCount at hc
      simp only [Bool.or_eq_false_iff, decide_eq_false_iff_not, Bool.and_eq_false_iff] at hc
      refine ⟨s.ret, hp, .call hs ha (by rw [← required_eq]; omega) ?_, (hσ.params f s hs).2⟩
      intro hv
      rcases hc.2 with h | h
      · omega
      · rw [hv] at h; cases h
  | .meth .., hg, _ => hg.elim
  | .member .., hg, _ => hg.elim
  | .index a i pre, hg, h => by
      have h' : (check σ E a).1 + (check σ E i).1
          + (match (check σ E i).2 with | some t => err (!isInteger t) | none => 0) = 0 := h
      obtain ⟨s, a1, a2, a3⟩ := check_sound hσ hE a hg.1 (by omega)
      obtain ⟨t, b1, b2, b3⟩ := check_sound hσ hE i hg.2.1 (by omega)
      rw [b1] at h'
      have hi : Integer t := by
        have := err_zero (show err (!isInteger t) = 0 from by simp only at h'; omega)
        exact (isInteger_iff t).1 (by simpa using this)
      show ∃ u, element (check σ E a).2 pre = some u ∧ _
      rw [a1]
      rcases hg.2.2 s a2 with ⟨u, e⟩ | ⟨n, u, e⟩
      · subst e
        exact ⟨u, rfl, .elemP a2 b2 hi, a3⟩
      · subst e
        exact ⟨u, rfl, .elemA a2 b2 hi, a3⟩
  | .cast e t, hg, h => by
      have h' : (check σ E e).1 + badCast (check σ E e).2 t = 0 := h
      obtain ⟨s, a1, a2, a3⟩ := check_sound hσ hE e hg.1 (by omega)
      refine ⟨t, rfl, .cast a2 ?_, hg.2⟩
      rintro ⟨hp, hs⟩ hm
      rw [a1] at h'
      cases hp with
      | string => exact hs rfl
      | ptr =>
          simp only [badCast] at h'
          have := err_zero (Nat.eq_zero_of_add_eq_zero_left h')
          simp only [List.mem_cons, List.not_mem_nil, or_false] at hm
          rcases hm with e | e | e | e <;> subst e <;> simp at this
  | .arr .nil, hg, _ => hg.elim
  | .arr (.cons e es), hg, h => by
      have h' : (check σ E e).1 + (checkElems σ E es).1 = 0 := h
      obtain ⟨t, a1, a2, a3⟩ := check_sound hσ hE e hg.1 (by omega)
      refine ⟨.array (es.length + 1) t, ?_, .arr a2 (hg.2.2 t a2), a3⟩
      show some (Ty.array (es.length + 1) ((checkElems σ E (.cons e es)).2.getD .unknown)) = _
      have : (checkElems σ E (.cons e es)).2 = some t := by
        simp only [checkElems, a1]
        cases t <;> first | rfl | exact a3.elim
      rw [this]
      rfl
  | .init n fs, hg, h => by
      simp only [check] at h ⊢
      cases e : σ.fields n with
      | none => rw [e] at h; cases h
      | some ds =>
          rw [e] at h
          exact ⟨_, rfl, .init e (fields_sound hσ hE ds (fun f t => hσ.fields n ds f t e) fs hg h), trivial⟩
  | .tern c a b pre, hg, h => by
      have h' : (check σ E c).1 + (check σ E a).1 + (check σ E b).1 + badCond false (check σ E c).2
          + need (check σ E a).2 (check σ E b).2 = 0 := h
      obtain ⟨r, c1, c2, _⟩ := check_sound hσ hE c hg.1 (by omega)
      obtain ⟨s, a1, a2, a3⟩ := check_sound hσ hE a hg.2.1 (by omega)
      obtain ⟨t, b1, b2, b3⟩ := check_sound hσ hE b hg.2.2.1 (by omega)
      rw [c1, a1, b1] at h'
      have hf := need_zero a3 b3 (show need (some s) (some t) = 0 by omega)
      refine ⟨s, ?_, .tern c2 a2 b2 (badCond_false (by omega)) hf, a3⟩
      simp only [check, a1, b1]
      rw [if_pos ((compatible_iff a3 b3).2 hf)]
theorem args_sound {σ : Ctx} {E : Env} {Γ : Types} (hσ : KnownCtx σ) (hE : Agree E Γ) :
    ∀ (es : Exprs) (ts : List Ty), Goods σ Γ es → (∀ t ∈ ts, Known t) → checkArgs σ E es ts = 0 →
      TypedArgs σ Γ es ts
  | .nil, _, _, _, _ => .nil
  | .cons e r, [], hg, hk, h => by
      have h' : (check σ E e).1 + checkArgs σ E r [] = 0 := h
      obtain ⟨s, _, a2, _⟩ := check_sound hσ hE e hg.1 (by omega)
      exact .more a2 (args_sound hσ hE r [] hg.2 hk (by omega))
  | .cons e r, t :: ts, hg, hk, h => by
      have h' : (check σ E e).1 + need (some t) (check σ E e).2 + checkArgs σ E r ts = 0 := h
      obtain ⟨s, a1, a2, a3⟩ := check_sound hσ hE e hg.1 (by omega)
      rw [a1] at h'
      exact .cons a2 (need_zero (hk t (by simp)) a3 (by omega))
        (args_sound hσ hE r ts hg.2 (fun u hu => hk u (by simp [hu])) (by omega))
theorem fields_sound {σ : Ctx} {E : Env} {Γ : Types} (hσ : KnownCtx σ) (hE : Agree E Γ)
    (ds : List (String × Ty)) (hd : ∀ f t, ds.lookup f = some t → Known t) :
    ∀ fs : Fields, GoodFields σ Γ fs → checkFields σ E ds fs = 0 → TypedFields σ Γ ds fs
  | .nil, _, _ => .nil
  | .cons f e r, hg, h => by
      have h' : (check σ E e).1 + (match ds.lookup f with | none => 1 | some t => need (some t) (check σ E e).2)
        + checkFields σ E ds r = 0 := h
      obtain ⟨s, a1, a2, a3⟩ := check_sound hσ hE e hg.1 (by omega)
      rw [a1] at h'
      cases el : ds.lookup f with
      | none => rw [el] at h'; simp at h'
      | some t =>
          rw [el] at h'
          simp only at h'
          exact .cons el a2 (need_zero (hd f t el) a3 (by omega))
            (fields_sound hσ hE ds hd r hg.2 (by omega))
end

/-- the type the rules give to a binary operation is that of the checker -/
theorem binary_complete {σ : Ctx} {Γ : Types} {op : BOp} {a b : Expr} {u : Ty} {pre : Option Ty} {ra rb : Nat × Option Ty}
    (ha : ∀ s, Typed σ Γ a s → ra = (0, some s) ∧ Known s) (hb : ∀ t, Typed σ Γ b t → rb = (0, some t) ∧ Known t)
    (h : Typed σ Γ (.bin op a b pre) u) :
    (ra.1 + rb.1 + (binary op b ra.2 rb.2 pre).1, (binary op b ra.2 rb.2 pre).2) = (0, some u) ∧ Known u := by
  cases h with
  | @arith _ _ _ _ s t _ hop h1 h2 h3 h4 =>
      obtain ⟨e1, k1⟩ := ha s h1
      obtain ⟨e2, k2⟩ := hb t h2
      subst e1 e2
      have hr := arith_complete pre h3
      have hz : err ((op = .div || op = .mod) && isZero b) = 0 := by
        by_cases ho : op = .div ∨ op = .mod
        · have hf : isZero b = false := by
            cases hb : isZero b
            · rfl
            · exact absurd ((isZero_iff b).1 hb) (h4 ho)
          rw [hf, Bool.and_false]
          rfl
        · simp only [not_or] at ho
          simp [ho.1, ho.2, err]
      have hb : binary op b (some s) (some t) pre = (0, some u) := by
        have : binary op b (some s) (some t) pre
            = (err ((op = .div || op = .mod) && isZero b) + (arith op s t pre).1, (arith op s t pre).2) := by
          simp only [List.mem_cons, List.not_mem_nil, or_false] at hop
          rcases hop with e | e | e | e | e <;> subst e <;> rfl
        rw [this, hz, hr]
        rfl
      refine ⟨by simp [hb], ?_⟩
      cases h3 with
      | diff => trivial
      | move => exact k1
      | moved => exact k2
      | ints => exact k1
      | floats => trivial
  | @compare _ _ _ _ s t hop h1 h2 h3 =>
      obtain ⟨e1, k1⟩ := ha s h1
      obtain ⟨e2, k2⟩ := hb t h2
      subst e1 e2
      have hb : binary op b (some s) (some t) pre = (0, some (.int .bool)) := by
        have : binary op b (some s) (some t) pre
            = (err (!typeEq s t && (!numeric s || !numeric t) && !(s = .unknown || t = .unknown)),
                some (.int .bool)) := by
          simp only [List.mem_cons, List.not_mem_nil, or_false] at hop
          rcases hop with e | e | e | e | e | e <;> subst e <;> rfl
        rw [this]
        rcases h3 with h3 | ⟨h3, h4⟩
        · simp [same_typeEq h3, err]
        · simp [(numeric_iff s).2 h3, (numeric_iff t).2 h4, err]
      exact ⟨by simp [hb], trivial⟩
  | @logic _ _ _ _ s t hop h1 h2 =>
      obtain ⟨e1, k1⟩ := ha s h1
      obtain ⟨e2, k2⟩ := hb t h2
      subst e1 e2
      simp only [List.mem_cons, List.not_mem_nil, or_false] at hop
      rcases hop with e | e <;> subst e <;> exact ⟨rfl, trivial⟩
  | @bits _ _ _ _ s t hop h1 h2 h3 h4 h5 =>
      obtain ⟨e1, k1⟩ := ha u h1
      obtain ⟨e2, k2⟩ := hb t h2
      subst e1 e2
      have hw : err ((op = .shl || op = .shr) && wideShift (some u) b) = 0 := by
        by_cases ho : op = .shl ∨ op = .shr
        · have hf : wideShift (some u) b = false := by
            cases hb : wideShift (some u) b
            · rfl
            · exact absurd ((wideShift_iff u b).1 hb) (h5 ho)
          rw [hf, Bool.and_false]
          rfl
        · simp only [not_or] at ho
          simp [ho.1, ho.2, err]
      have hb : binary op b (some u) (some t) pre = (0, some u) := by
        have : binary op b (some u) (some t) pre
            = (if isInteger u && isInteger t
                then (err ((op = .shl || op = .shr) && wideShift (some u) b), some u)
                else (err ((op = .shl || op = .shr) && wideShift (some u) b) + 1, pre)) := by
          simp only [List.mem_cons, List.not_mem_nil, or_false] at hop
          rcases hop with e | e | e | e | e <;> subst e <;> rfl
        rw [this, hw, (isInteger_iff u).2 h3, (isInteger_iff t).2 h4]
        rfl
      exact ⟨by simp [hb], k1⟩

mutual
/-- an expression that has a type by the rules gets it from the checker, without an error -/
theorem check_complete {σ : Ctx} {E : Env} {Γ : Types} (hσ : KnownCtx σ) (hE : Agree E Γ) :
    ∀ (e : Expr) (t : Ty), Good σ Γ e → Typed σ Γ e t → check σ E e = (0, some t) ∧ Known t
  | .int _, _, _, h => by cases h; exact ⟨rfl, trivial⟩
  | .flt _, _, _, h => by cases h; exact ⟨rfl, trivial⟩
  | .str, _, _, h => by cases h; exact ⟨rfl, trivial⟩
  | .chr, _, _, h => by cases h; exact ⟨rfl, trivial⟩
  | .var x pre, t, hg, h => by
      cases h with
      | var h1 =>
          obtain ⟨t', h1', h2⟩ := hg
          rw [h1] at h1'
          obtain rfl : t = t' := by injection h1'
          obtain ⟨hk, hl⟩ := hE x t h1
          subst h2
          rcases hl with hl | hl <;> simp [check, hl, hk]
  | .un op e pre, t, hg, h => by
      cases h with
      | not h1 =>
          obtain ⟨e1, k1⟩ := check_complete hσ hE e _ hg h1
          simp [check, e1, unary, Known]
      | neg h1 h2 =>
          obtain ⟨e1, k1⟩ := check_complete hσ hE e _ hg h1
          simp [check, e1, unary, (numeric_iff t).2 h2, k1]
      | bnot h1 h2 =>
          obtain ⟨e1, k1⟩ := check_complete hσ hE e _ hg h1
          simp [check, e1, unary, (isInteger_iff t).2 h2, k1]
      | deref h1 =>
          obtain ⟨e1, k1⟩ := check_complete hσ hE e _ hg h1
          simp [check, e1, unary]
          exact k1
      | first h1 =>
          obtain ⟨e1, k1⟩ := check_complete hσ hE e _ hg h1
          simp [check, e1, unary, Known]
  | .bin op a b pre, t, hg, h =>
      binary_complete (fun s hs => check_complete hσ hE a s hg.1 hs)
        (fun s hs => check_complete hσ hE b s hg.2.1 hs) h
  | .assign a b, t, hg, h => by
      cases h with
      | assign h1 h2 h3 =>
          obtain ⟨e1, k1⟩ := check_complete hσ hE a _ hg.1 h1
          obtain ⟨e2, k2⟩ := check_complete hσ hE b _ hg.2 h2
          simp [check, e1, e2, need_fits k1 k2 h3, k1]
  | .call f as pre, t, hg, h => by
      cases h with
      | @call _ _ _ s h1 h2 h3 h4 =>
          obtain ⟨hg, s', hs, hp⟩ := hg
          rw [h1] at hs
          obtain rfl : s = s' := by injection hs
          have ha := args_complete hσ hE as (s.params.map Prod.fst) hg (by
            intro t ht
            obtain ⟨p, hp, e⟩ := List.mem_map.1 ht
            exact e ▸ (hσ.params f s h1).1 p hp) h2
          have hc : badCount s as.length = false := by
            unfold badCount
            rw [required_eq]
            simp only [Bool.or_eq_false_iff, decide_eq_false_iff_not, Bool.and_eq_false_iff]
            refine ⟨by omega, ?_⟩
            cases hv : s.varargs
            · exact Or.inl (by have := h4 hv; omega)
            · exact Or.inr rfl
          refine ⟨?_, (hσ.params f s h1).2⟩
          simp [check, h1, ha, hc, hp, err]
  | .meth .., _, hg, _ => hg.elim
  | .member .., _, hg, _ => hg.elim
  | .index a i pre, t, hg, h => by
      cases h with
      | elemP h1 h2 h3 =>
          obtain ⟨e1, k1⟩ := check_complete hσ hE a _ hg.1 h1
          obtain ⟨e2, k2⟩ := check_complete hσ hE i _ hg.2.1 h2
          simp [check, e1, e2, (isInteger_iff _).2 h3, element, err]
          exact k1
      | elemA h1 h2 h3 =>
          obtain ⟨e1, k1⟩ := check_complete hσ hE a _ hg.1 h1
          obtain ⟨e2, k2⟩ := check_complete hσ hE i _ hg.2.1 h2
          simp [check, e1, e2, (isInteger_iff _).2 h3, element, err]
          exact k1
  | .cast e t, _, hg, h => by
      cases h with
      | @cast _ s _ h1 h2 =>
          obtain ⟨e1, k1⟩ := check_complete hσ hE e _ hg.1 h1
          refine ⟨?_, hg.2⟩
          have hb : badCast (some s) t = 0 := by
            cases s with
            | ptr i =>
                have := h2 ⟨.ptr, by simp⟩
                simp only [List.mem_cons, List.not_mem_nil, or_false, not_or] at this
                simp [badCast, this, err]
            | _ => rfl
          simp [check, e1, hb]
  | .arr .nil, _, hg, _ => hg.elim
  | .arr (.cons e es), _, hg, h => by
      cases h with
      | @arr _ _ t h1 h2 =>
          obtain ⟨e1, k1⟩ := check_complete hσ hE e _ hg.1 h1
          have hs := elems_complete hσ hE es t hg.2.1 h2
          refine ⟨?_, k1⟩
          have : checkElems σ E (.cons e es) = (0, some t) := by
            simp only [checkElems, e1, hs]
            cases t <;> first | rfl | exact k1.elim
          simp only [check, this]
          rfl
  | .init n fs, _, hg, h => by
      cases h with
      | init h1 h2 =>
          have := fields_complete hσ hE _ (fun f t => hσ.fields n _ f t h1) fs hg h2
          simp [check, h1, this, Known]
  | .tern c a b pre, t, hg, h => by
      cases h with
      | tern h1 h2 h3 h4 h5 =>
          obtain ⟨e1, k1⟩ := check_complete hσ hE c _ hg.1 h1
          obtain ⟨e2, k2⟩ := check_complete hσ hE a _ hg.2.1 h2
          obtain ⟨e3, k3⟩ := check_complete hσ hE b _ hg.2.2.1 h3
          refine ⟨?_, k2⟩
          simp [check, e1, e2, e3, truthy_cond' h4 (hg.2.2.2 _ h1), need_fits k2 k3 h5,
            (compatible_iff k2 k3).2 h5]
theorem args_complete {σ : Ctx} {E : Env} {Γ : Types} (hσ : KnownCtx σ) (hE : Agree E Γ) :
    ∀ (es : Exprs) (ts : List Ty), Goods σ Γ es → (∀ t ∈ ts, Known t) → TypedArgs σ Γ es ts →
      checkArgs σ E es ts = 0
  | .nil, _, _, _, _ => by simp [checkArgs]
  | .cons e r, [], hg, hk, h => by
      cases h with
      | more h1 h2 =>
          obtain ⟨e1, k1⟩ := check_complete hσ hE e _ hg.1 h1
          simp [checkArgs, e1, args_complete hσ hE r [] hg.2 hk h2]
  | .cons e r, t :: ts, hg, hk, h => by
      cases h with
      | cons h1 h2 h3 =>
          obtain ⟨e1, k1⟩ := check_complete hσ hE e _ hg.1 h1
          simp [checkArgs, e1, need_fits (hk t (by simp)) k1 h2,
            args_complete hσ hE r ts hg.2 (fun u hu => hk u (by simp [hu])) h3]
theorem elems_complete {σ : Ctx} {E : Env} {Γ : Types} (hσ : KnownCtx σ) (hE : Agree E Γ) :
    ∀ (es : Exprs) (t : Ty), Goods σ Γ es → TypedElems σ Γ es t → (checkElems σ E es).1 = 0
  | .nil, _, _, _ => rfl
  | .cons e r, t, hg, h => by
      cases h with
      | cons h1 h2 h3 =>
          obtain ⟨e1, k1⟩ := check_complete hσ hE e _ hg.1 h1
          simp [checkElems, e1, elems_complete hσ hE r t hg.2 h3]
theorem fields_complete {σ : Ctx} {E : Env} {Γ : Types} (hσ : KnownCtx σ) (hE : Agree E Γ)
    (ds : List (String × Ty)) (hd : ∀ f t, ds.lookup f = some t → Known t) :
    ∀ fs : Fields, GoodFields σ Γ fs → TypedFields σ Γ ds fs → checkFields σ E ds fs = 0
  | .nil, _, _ => rfl
  | .cons f e r, hg, h => by
      cases h with
      | cons h1 h2 h3 h4 =>
          obtain ⟨e1, k1⟩ := check_complete hσ hE e _ hg.1 h2
          simp [checkFields, e1, h1, need_fits (hd f _ h1) k1 h3,
            fields_complete hσ hE ds hd r hg.2 h4]
end

/-! ## Statements -/

theorem agree_cons {E : Env} {Γ : Types} (h : Agree E Γ) (x : String) {t : Ty} (ht : Known t) :
    Agree ((x, some t) :: E) ((x, t) :: Γ) := by
  intro y u hy
  by_cases e : (y == x) = true
  · simp only [List.lookup, e] at hy ⊢
    obtain rfl : t = u := by injection hy
    exact ⟨ht, Or.inl rfl⟩
  · simp only [Bool.not_eq_true] at e
    simp only [List.lookup, e] at hy ⊢
    exact h y u hy

theorem goodB_cons {σ : Ctx} {ret : Ty} {Γ : Types} {s : Stmt} {r : Stmts} (hn : ∀ x t e, s ≠ .decl x t e)
    (h : GoodB σ ret Γ (.cons s r)) : GoodS σ ret Γ s ∧ GoodB σ ret Γ r := by
  cases s with
  | decl x t e => exact absurd rfl (hn x t e)
  | _ => exact h

theorem declared_other {σ : Ctx} {E : Env} {s : Stmt} (hn : ∀ x t e, s ≠ .decl x t e) : declared σ E s = E := by
  cases s with
  | decl x t e => exact absurd rfl (hn x t e)
  | _ => rfl

mutual
/-- a statement without an error is well typed -/
theorem checkS_sound {σ : Ctx} {ret : Ty} (hσ : KnownCtx σ) :
    ∀ (s : Stmt) (E : Env) (Γ : Types), Agree E Γ → GoodS σ ret Γ s → checkS σ ret E s = 0 → Ok σ ret Γ s
  | .decl x (some t) e, E, Γ, hE, hg, h => by
      have h' : (check σ E e).1 + need (some t) (check σ E e).2 = 0 := h
      obtain ⟨s, h1, h2, h3⟩ := check_sound hσ hE e hg.1 (by omega)
      rw [h1] at h'
      exact .decl h2 (need_zero (hg.2 t rfl) h3 (by omega))
  | .decl x none e, E, Γ, hE, hg, h => by
      obtain ⟨s, h1, h2, h3⟩ := check_sound hσ hE e hg.1 h
      exact .infer h2
  | .expr e, E, Γ, hE, hg, h => by
      obtain ⟨s, h1, h2, h3⟩ := check_sound hσ hE e hg h
      exact .expr h2
  | .ret (some e), E, Γ, hE, hg, h => by
      have h' : (check σ E e).1 + badReturn ret (some e) = 0 := h
      obtain ⟨s, h1, h2, h3⟩ := check_sound hσ hE e hg.1 (by omega)
      have hr : ret ≠ .void := by
        rintro rfl
        simp [badReturn, err] at h'
      exact .ret hr h2 (hg.2 s h2)
  | .ret none, E, Γ, _, _, h => by
      have h' : badReturn ret none = 0 := by simpa [checkS] using h
      refine .leave ?_
      have := err_zero h'
      simpa using this
  | .jump, _, _, _, _, _ => .jump
  | .ite c a b, E, Γ, hE, hg, h => by
      have h' : (check σ E c).1 + badCond true (check σ E c).2 + checkS σ ret E a + checkS σ ret E b = 0 := h
      obtain ⟨s, h1, h2, h3⟩ := check_sound hσ hE c hg.1 (by omega)
      rw [h1] at h'
      exact .ite h2 (badCond_zero (by omega)) (checkS_sound hσ a E Γ hE hg.2.1 (by omega))
        (checkS_sound hσ b E Γ hE hg.2.2 (by omega))
  | .while_ c b, E, Γ, hE, hg, h => by
      have h' : (check σ E c).1 + badCond true (check σ E c).2 + checkS σ ret E b = 0 := h
      obtain ⟨s, h1, h2, h3⟩ := check_sound hσ hE c hg.1 (by omega)
      rw [h1] at h'
      exact .while_ h2 (badCond_zero (by omega)) (checkS_sound hσ b E Γ hE hg.2 (by omega))
  | .block b, E, Γ, hE, hg, h => .block (checkB_sound hσ b E Γ false hE hg h)
  | .match_ e as, E, Γ, hE, hg, h => by
      have h' : (check σ E e).1 + checkA σ ret E as + err (!as.hasDefault) = 0 := h
      obtain ⟨s, h1, h2, h3⟩ := check_sound hσ hE e hg.1 (by omega)
      exact .match_ h2 (checkA_sound hσ as E Γ hE hg.2 (by omega))
  | .other _, _, _, _, hg, _ => hg.elim
theorem checkB_sound {σ : Ctx} {ret : Ty} (hσ : KnownCtx σ) :
    ∀ (b : Stmts) (E : Env) (Γ : Types) (dead : Bool), Agree E Γ → GoodB σ ret Γ b →
      checkB σ ret E dead b = 0 → Oks σ ret Γ b
  | .nil, _, _, _, _, _, _ => .nil
  | .cons s r, E, Γ, dead, hE, hg, h => by
      have h' : err dead + checkS σ ret E s + checkB σ ret (declared σ E s) (ends s) r = 0 := h
      have hs := checkS_sound (ret := ret) hσ s E Γ hE
      have hr := fun E' Γ' => checkB_sound (ret := ret) hσ r E' Γ' (ends s)
      by_cases hn : ∃ x t e, s = .decl x t e
      · obtain ⟨x, t, e, rfl⟩ := hn
        cases t with
        | some t =>
            exact .decl (hs hg.1 (by omega)) (hr _ _ (agree_cons hE x (hg.1.2 t rfl)) hg.2 (by
              have : declared σ E (.decl x (some t) e) = (x, some t) :: E := rfl
              rw [this] at h'
              omega))
        | none =>
            have h0 : (check σ E e).1 = 0 := by
              have : checkS σ ret E (.decl x none e) = (check σ E e).1 + 0 := rfl
              omega
            obtain ⟨u, h1, h2, h3⟩ := check_sound hσ hE e hg.1.1 h0
            refine .infer h2 (hr _ _ (agree_cons hE x h3) (hg.2 u h2) ?_)
            have : declared σ E (.decl x none e) = (x, some u) :: E := by
              show (x, (check σ E e).2) :: E = _
              rw [h1]
            rw [this] at h'
            omega
      · have hn' : ∀ x t e, s ≠ .decl x t e := fun x t e he => hn ⟨x, t, e, he⟩
        obtain ⟨g1, g2⟩ := goodB_cons hn' hg
        rw [declared_other hn'] at h'
        exact .cons hn' (hs g1 (by omega)) (hr E Γ hE g2 (by omega))
theorem checkA_sound {σ : Ctx} {ret : Ty} (hσ : KnownCtx σ) :
    ∀ (as : Arms) (E : Env) (Γ : Types), Agree E Γ → GoodA σ ret Γ as → checkA σ ret E as = 0 →
      OkArms σ ret Γ as
  | .nil, _, _, _, _, _ => .nil
  | .cons d b r, E, Γ, hE, hg, h => by
      have h' : checkS σ ret E b + checkA σ ret E r = 0 := h
      exact .cons (checkS_sound hσ b E Γ hE hg.1 (by omega)) (checkA_sound hσ r E Γ hE hg.2 (by omega))
end

theorem wild_iff : ∀ as : Arms, as.hasDefault = true ↔ Wild as
  | .nil => by simp [Arms.hasDefault, Wild]
  | .cons d _ r => by simp [Arms.hasDefault, Wild, wild_iff r]

theorem leaves_iff (s : Stmt) : ends s = true ↔ Leaves s := by
  constructor
  · intro h
    cases s <;> simp [ends] at h
    · exact .ret _
    · exact .jump
  · intro h; cases h <;> rfl

mutual
/-- a well-typed statement is accepted -/
theorem checkS_complete {σ : Ctx} {ret : Ty} (hσ : KnownCtx σ) :
    ∀ (s : Stmt) (E : Env) (Γ : Types), Agree E Γ → GoodS σ ret Γ s → Live s → Ok σ ret Γ s →
      checkS σ ret E s = 0
  | .decl x (some t) e, E, Γ, hE, hg, _, h => by
      cases h with
      | decl h1 h2 =>
          obtain ⟨e1, k1⟩ := check_complete hσ hE e _ hg.1 h1
          simp [checkS, e1, need_fits (hg.2 t rfl) k1 h2]
  | .decl x none e, E, Γ, hE, hg, _, h => by
      cases h with
      | infer h1 =>
          obtain ⟨e1, k1⟩ := check_complete hσ hE e _ hg.1 h1
          simp [checkS, e1, need]
  | .expr e, E, Γ, hE, hg, _, h => by
      cases h with
      | expr h1 =>
          obtain ⟨e1, k1⟩ := check_complete hσ hE e _ hg h1
          simp [checkS, e1]
  | .ret (some e), E, Γ, hE, hg, _, h => by
      cases h with
      | ret h1 h2 h3 =>
          obtain ⟨e1, k1⟩ := check_complete hσ hE e _ hg.1 h2
          simp [checkS, e1, badReturn, h1, err]
  | .ret none, E, Γ, _, _, _, h => by
      cases h with
      | leave h1 => simp [checkS, badReturn, h1, err]
  | .jump, _, _, _, _, _, _ => rfl
  | .ite c a b, E, Γ, hE, hg, hl, h => by
      cases h with
      | ite h1 h2 h3 h4 =>
          obtain ⟨e1, k1⟩ := check_complete hσ hE c _ hg.1 h1
          simp [checkS, e1, truthy_cond h2, checkS_complete hσ a E Γ hE hg.2.1 hl.1 h3,
            checkS_complete hσ b E Γ hE hg.2.2 hl.2 h4]
  | .while_ c b, E, Γ, hE, hg, hl, h => by
      cases h with
      | while_ h1 h2 h3 =>
          obtain ⟨e1, k1⟩ := check_complete hσ hE c _ hg.1 h1
          simp [checkS, e1, truthy_cond h2, checkS_complete hσ b E Γ hE hg.2 hl h3]
  | .block b, E, Γ, hE, hg, hl, h => by
      cases h with
      | block h1 => exact checkB_complete hσ b E Γ false hE hg hl (by simp) h1
  | .match_ e as, E, Γ, hE, hg, hl, h => by
      cases h with
      | match_ h1 h2 =>
          obtain ⟨e1, k1⟩ := check_complete hσ hE e _ hg.1 h1
          simp [checkS, e1, (wild_iff as).2 hl.1, checkA_complete hσ as E Γ hE hg.2 hl.2 h2, err]
  | .other _, _, _, _, hg, _, _ => hg.elim
theorem checkB_complete {σ : Ctx} {ret : Ty} (hσ : KnownCtx σ) :
    ∀ (b : Stmts) (E : Env) (Γ : Types) (dead : Bool), Agree E Γ → GoodB σ ret Γ b → LiveB b →
      (dead = true → b = .nil) → Oks σ ret Γ b → checkB σ ret E dead b = 0
  | .nil, _, _, _, _, _, _, _, _ => rfl
  | .cons s r, E, Γ, dead, hE, hg, hl, hd, h => by
      have hdf : dead = false := by
        cases dead
        · rfl
        · cases hd rfl
      subst hdf
      have hs := checkS_complete (ret := ret) hσ s E Γ hE
      have hr := fun E' Γ' (ha : Agree E' Γ') hg' =>
        checkB_complete (ret := ret) hσ r E' Γ' (ends s) ha hg' hl.2.2 (fun h => hl.2.1 ((leaves_iff s).1 h))
      have goal : checkS σ ret E s = 0 ∧ checkB σ ret (declared σ E s) (ends s) r = 0 := by
        cases h with
        | @decl _ x t e _ h1 h2 =>
            exact ⟨hs hg.1 hl.1 h1, hr _ _ (agree_cons hE x (hg.1.2 t rfl)) hg.2 h2⟩
        | @infer _ x e u _ h1 h2 =>
            obtain ⟨e1, k1⟩ := check_complete hσ hE e u hg.1.1 h1
            refine ⟨hs hg.1 hl.1 (.infer h1), ?_⟩
            have : declared σ E (.decl x none e) = (x, some u) :: E := by
              show (x, (check σ E e).2) :: E = _
              rw [e1]
            rw [this]
            exact hr _ _ (agree_cons hE x k1) (hg.2 u h1) h2
        | cons hn h1 h2 =>
            obtain ⟨g1, g2⟩ := goodB_cons hn hg
            rw [declared_other hn]
            exact ⟨hs g1 hl.1 h1, hr E Γ hE g2 h2⟩
      simp [checkB, goal.1, goal.2, err]
theorem checkA_complete {σ : Ctx} {ret : Ty} (hσ : KnownCtx σ) :
    ∀ (as : Arms) (E : Env) (Γ : Types), Agree E Γ → GoodA σ ret Γ as → LiveA as → OkArms σ ret Γ as →
      checkA σ ret E as = 0
  | .nil, _, _, _, _, _, _ => rfl
  | .cons d b r, E, Γ, hE, hg, hl, h => by
      cases h with
      | cons h1 h2 =>
          simp [checkA, checkS_complete hσ b E Γ hE hg.1 hl.1 h1, checkA_complete hσ r E Γ hE hg.2 hl.2 h2]
end

/-! ## Functions and programs -/

theorem lookup_none (Γ : Types) (x : String) :
    (Γ.map fun p => (p.1, (none : Option Ty))).lookup x = (Γ.lookup x).map fun _ => none := by
  induction Γ with
  | nil => rfl
  | cons p Γ ih =>
      obtain ⟨y, t⟩ := p
      by_cases e : (x == y) = true
      · simp [List.lookup, e]
      · simp only [Bool.not_eq_true] at e
        simp [List.lookup, e, ih]

theorem lookup_mem {Γ : Types} {x : String} {t : Ty} (h : Γ.lookup x = some t) : (x, t) ∈ Γ := by
  induction Γ with
  | nil => cases h
  | cons p Γ ih =>
      obtain ⟨y, u⟩ := p
      by_cases e : (x == y) = true
      · simp only [List.lookup, e] at h
        simp only [beq_iff_eq] at e
        injection h with h
        simp [h, e]
      · simp only [Bool.not_eq_true] at e
        simp only [List.lookup, e] at h
        exact List.mem_cons_of_mem _ (ih h)

theorem agree_params {ps : List (String × Ty)} (hk : ∀ p ∈ ps, Known p.2) :
    Agree (ps.reverse.map fun p => (p.1, none)) ps.reverse := by
  intro x t h
  refine ⟨hk (x, t) (by simpa using lookup_mem h), Or.inr ?_⟩
  rw [lookup_none, h]
  rfl

/-- the functions the theorems are about -/
structure GoodFn (σ : Ctx) (f : Fn) : Prop where
  params : ∀ p ∈ f.params, Known p.2
  body : GoodB σ f.ret f.params.reverse f.body

/-- **Accepted functions are well typed.**  A function the checker reports no error in is well typed.
Missing: the functions with the parts `Good` leaves out, which are not checked (see the violations). -/
theorem accepted_welltyped_partial {σ : Ctx} (hσ : KnownCtx σ) {f : Fn} (hf : GoodFn σ f)
    (h : checkFn σ f = 0) : OkFn σ f :=
  checkB_sound hσ f.body _ _ false (agree_params hf.params) hf.body h

/-- **Well-typed functions are accepted.**  Missing: a `match` without `_`, statements behind a `return`, and
a string as the condition of `? :`, which are refused (see the violations). -/
theorem welltyped_accepted_partial {σ : Ctx} (hσ : KnownCtx σ) {f : Fn} (hf : GoodFn σ f)
    (hl : LiveB f.body) (h : OkFn σ f) : checkFn σ f = 0 :=
  checkB_complete hσ f.body _ _ false (agree_params hf.params) hf.body hl (by simp) h

/-- **Programs** of such functions are accepted exactly if they are well typed.  Missing: methods. -/
theorem program_partial {σ : Ctx} (hσ : KnownCtx σ) {fs : List Fn}
    (hf : ∀ f ∈ fs, GoodFn σ f ∧ LiveB f.body) :
    checkProgram σ (fs.map .fn) = 0 ↔ OkProgram σ (fs.map .fn) := by
  have hsum : checkProgram σ (fs.map .fn) = 0 ↔ ∀ f ∈ fs, checkFn σ f = 0 := by
    unfold checkProgram
    clear hf
    induction fs with
    | nil => simp
    | cons f fs ih =>
        simp only [List.map_cons, List.sum_cons, Nat.add_eq_zero_iff, List.forall_mem_cons, ih]
        exact Iff.rfl
  rw [hsum]
  constructor
  · intro h i hi
    obtain ⟨f, hm, rfl⟩ := List.mem_map.1 hi
    exact accepted_welltyped_partial hσ (hf f hm).1 (h f hm)
  · intro h f hm
    exact welltyped_accepted_partial hσ (hf f hm).1 (hf f hm).2 (h (.fn f) (List.mem_map.2 ⟨f, hm, rfl⟩))

/-- an expression has one type -/
theorem typed_unique {σ : Ctx} (hσ : KnownCtx σ) {Γ : Types} (hk : ∀ p ∈ Γ, Known p.2) {e : Expr} {s t : Ty}
    (hg : Good σ Γ e) (h1 : Typed σ Γ e s) (h2 : Typed σ Γ e t) : s = t := by
  have hE : Agree (Γ.map fun p => (p.1, none)) Γ := by
    intro x u h
    refine ⟨hk (x, u) (lookup_mem h), Or.inr ?_⟩
    rw [lookup_none, h]
    rfl
  have e1 := (check_complete hσ hE e s hg h1).1
  have e2 := (check_complete hσ hE e t hg h2).1
  rw [e1] at e2
  simpa using e2

/-! ## A program that meets the hypotheses -/

/-- `int` -/
private abbrev I : Ty := .int .int

/-- a context with `fn log(fmt: string, ...)` and `struct P { x: int }` -/
def demoCtx : Ctx where
  sig f := if f = "log" then some { params := [(.string, false)], varargs := true, ret := .void } else none
  fields n := if n = "P" then some [("x", I)] else none
  known _ := false

theorem demoCtx_known : KnownCtx demoCtx where
  params f s h := by
    simp only [demoCtx] at h
    split at h
    · obtain rfl := by injection h
      simp [Known]
    · cases h
  fields n ds f t h hl := by
    simp only [demoCtx] at h
    split at h
    · obtain rfl : [("x", I)] = ds := by injection h
      have := lookup_mem hl
      simp only [List.mem_cons, Prod.mk.injEq, List.not_mem_nil, or_false] at this
      rw [this.2]
      trivial
    · cases h

/-- a variable with the type the parser has given to it -/
private abbrev v (x : String) : Expr := .var x (some I)

/-- `fn pow(b: int, n: int, msg: string) -> int { let r: int = 1; while n > 0 { r = r * b; n = n - 1; }
let p = P { x: r }; if msg { log(msg, r); } return r; }` -/
def demoFn (last : Expr) : Fn where
  params := [("b", I), ("n", I), ("msg", .string)]
  ret := I
  body := .cons (.decl "r" (some I) (.int 1)) <| .cons (.while_ (.bin .gt (v "n") (.int 0) none)
      (.block (.cons (.expr (.assign (v "r") (.bin .mul (v "r") (v "b") none)))
        (.cons (.expr (.assign (v "n") (.bin .sub (v "n") (.int 1) none))) .nil)))) <|
    .cons (.decl "p" none (.init "P" (.cons "x" (v "r") .nil))) <|
    .cons (.ite (.var "msg" (some .string))
      (.block (.cons (.expr (.call "log" (.cons (.var "msg" (some .string)) (.cons (v "r") .nil)) (some .void))) .nil))
      (.block .nil)) <|
    .cons (.ret (some last)) .nil

theorem typed_i {σ : Ctx} {Γ : Types} {x : String} (h : Γ.lookup x = some I) {t : Ty}
    (ht : Typed σ Γ (v x) t) : t = I := by
  cases ht with
  | var h1 => rw [h] at h1; injection h1 with h1; exact h1.symm

theorem demo_good : GoodFn demoCtx (demoFn (v "r")) where
  params := by simp [demoFn, Known]
  body := by
    refine ⟨⟨trivial, by rintro u ⟨⟩; trivial⟩, ⟨⟨⟨I, rfl, rfl⟩, trivial, by simp⟩,
      ⟨⟨I, rfl, rfl⟩, ⟨I, rfl, rfl⟩, ⟨I, rfl, rfl⟩, by simp⟩, ⟨⟨I, rfl, rfl⟩, ⟨I, rfl, rfl⟩, trivial, by simp⟩,
      trivial⟩, ⟨⟨⟨I, rfl, rfl⟩, trivial⟩, by simp⟩, ?_⟩
    intro t ht
    cases ht
    refine ⟨⟨⟨.string, rfl, rfl⟩, ⟨⟨⟨⟨.string, rfl, rfl⟩, ⟨I, rfl, rfl⟩, trivial⟩, _, rfl, rfl⟩, trivial⟩,
      trivial⟩, ⟨⟨I, rfl, rfl⟩, ?_⟩, trivial⟩
    intro t ht
    rw [typed_i rfl ht]
    exact .same (.int trivial trivial)

theorem demo_live : LiveB (demoFn (v "r")).body := by
  refine ⟨trivial, nofun, ⟨trivial, nofun, trivial, nofun, trivial⟩, nofun,
    trivial, nofun, ⟨⟨trivial, nofun, trivial⟩, trivial⟩, nofun, trivial, (fun _ => rfl), trivial⟩

/-- the function meets the hypotheses of the theorems, is well typed and accepted -/
theorem demo : GoodFn demoCtx (demoFn (v "r")) ∧ LiveB (demoFn (v "r")).body
    ∧ checkFn demoCtx (demoFn (v "r")) = 0 ∧ OkFn demoCtx (demoFn (v "r")) :=
  ⟨demo_good, demo_live, by decide +kernel,
    accepted_welltyped_partial demoCtx_known demo_good (by decide +kernel)⟩

/-! ## What is accepted but is not well typed -/

/-- no function with this text is well typed -/
theorem str_return {σ : Ctx} {Γ : Types} {k : TypeEq.IntK} : ¬ Ok σ (.int k) Γ (.ret (some .str)) := by
  intro h
  cases h with
  | ret h1 h2 h3 =>
      cases h2
      cases h3 with
      | same h =>
          cases h with
          | int h1 h2 => exact h2
          | float h1 h2 => exact h1
          | text' h => cases h
      | str h => simp at h

/-- **The type of what is returned is not checked**: in a function with a result, `return e;` is accepted
whatever the type of `e`; so `fn f() -> int { return "x"; }` is. -/
theorem return_type_violated :
    (∀ σ ret E e, ret ≠ .void → (check σ E e).1 = 0 → checkS σ ret E (.ret (some e)) = 0)
    ∧ ∀ σ, ∃ f : Fn, checkFn σ f = 0 ∧ ¬ OkFn σ f := by
  refine ⟨?_, ?_⟩
  · intro σ ret E e hr h
    simp [checkS, h, badReturn, hr, err]
  · intro σ
    refine ⟨⟨[], I, .cons (.ret (some .str)) .nil⟩, rfl, ?_⟩
    intro h
    cases h with
    | cons _ h _ => exact str_return h

/-- **Methods are not checked**: any `impl` block is accepted, and with it any program of such blocks; some
are not well typed. -/
theorem methods_violated :
    (∀ σ (p : List (List Fn)), checkProgram σ (p.map .impl) = 0)
    ∧ ∀ σ, ∃ ms : List Fn, ¬ OkProgram σ [.impl ms] := by
  refine ⟨?_, ?_⟩
  · intro σ p
    unfold checkProgram
    induction p with
    | nil => rfl
    | cons a p ih =>
        simp only [List.map_cons, List.sum_cons, ih]
        rfl
  · intro σ
    refine ⟨[⟨[], I, .cons (.ret (some .str)) .nil⟩], ?_⟩
    intro h
    have h1 := h (.impl [⟨[], I, .cons (.ret (some .str)) .nil⟩]) (by simp)
    have h2 : OkFn σ ⟨[], I, .cons (.ret (some .str)) .nil⟩ := h1 _ (by simp)
    cases h2 with
    | cons _ h _ => exact str_return h

/-- **Range loops, `do`-`while` and destructuring are not looked into**: whatever is in them is accepted. -/
theorem unvisited_violated :
    (∀ σ ret E ss, checkS σ ret E (.other ss) = 0) ∧ ∀ σ k Γ, ∃ ss, ¬ Ok σ (.int k) Γ (.other ss) := by
  refine ⟨fun _ _ _ _ => rfl, fun σ k Γ => ⟨.cons (.ret (some .str)) .nil, ?_⟩⟩
  intro h
  cases h with
  | other h =>
      cases h with
      | cons _ h _ => exact str_return h

/-- **`%` of floats is accepted**, with the type `f64`; C has no such operation. -/
theorem float_mod_violated (σ : Ctx) (E : Env) (Γ : Types) (pre : Option Ty) :
    check σ E (.bin .mod (.flt false) (.flt false) pre) = (0, some (.float .f64))
    ∧ ∀ t, ¬ Typed σ Γ (.bin .mod (.flt false) (.flt false) pre) t := by
  refine ⟨rfl, ?_⟩
  intro t h
  cases h with
  | arith _ h1 h2 h3 _ =>
      cases h1
      cases h2
      cases h3 with
      | move h => simp at h
      | ints h => exact h
      | floats h => exact h rfl
  | compare h => simp at h
  | logic h => simp at h
  | bits h => simp at h

/-- **Anything can be indexed**: `1[2]` is accepted and keeps the type the parser has given to it. -/
theorem index_violated (σ : Ctx) (E : Env) (Γ : Types) (pre : Option Ty) (n i : Nat) :
    check σ E (.index (.int n) (.int i) pre) = (0, pre) ∧ ∀ t, ¬ Typed σ Γ (.index (.int n) (.int i) pre) t := by
  refine ⟨rfl, ?_⟩
  intro t h
  cases h with
  | elemP h1 => cases h1
  | elemA h1 => cases h1

/-- **The elements of an array literal need not have one type**: after a first element of a known type the
others are only checked for themselves; `[1, "x"]` is an array of two integers. -/
theorem elements_violated :
    (∀ σ E e es t, (check σ E e) = (0, some t) → t ≠ .unknown → (checkElems σ E es).1 = 0 →
      check σ E (.arr (.cons e es)) = (0, some (.array (es.length + 1) t)))
    ∧ ∀ σ E Γ, check σ E (.arr (.cons (.int 1) (.cons .str .nil))) = (0, some (.array 2 (.int .i32)))
      ∧ ∀ t, ¬ Typed σ Γ (.arr (.cons (.int 1) (.cons .str .nil))) t := by
  refine ⟨?_, ?_⟩
  · intro σ E e es t h1 h2 h3
    have : checkElems σ E (.cons e es) = (0, some t) := by
      simp only [checkElems, h1, h3]
    simp only [check, this]
    rfl
  · intro σ E Γ
    refine ⟨rfl, ?_⟩
    intro t h
    cases h with
    | arr h1 h2 =>
        cases h1
        cases h2 with
        | cons h3 h4 h5 =>
            cases h3
            cases h4 with
            | same h =>
                cases h with
                | int h1 h2 => exact h2
                | float h1 h2 => exact h1
                | text' h => cases h
            | str h => simp at h

/-- **`void*` fits everything and everything fits `void*`**, a struct or a float too, which C refuses. -/
theorem void_pointer_violated (t : Ty) :
    compatible (.ptr .void) t = true ∧ compatible t (.ptr .void) = true
    ∧ ∀ σ ret E x z, checkS σ ret E (.decl x (some (.ptr .void)) (.flt z)) = 0 := by
  refine ⟨by simp [compatible, isVoidPtr], by simp [compatible, isVoidPtr], ?_⟩
  intro σ ret E x z
  simp [checkS, check, need, compatible, isVoidPtr, err]

/-- **Arguments of methods are not compared with the parameters**: a call of a method is accepted if each
part is, whatever the types. -/
theorem method_arguments_violated (σ : Ctx) (E : Env) (x : Expr) (pre : Option Ty) :
    ∀ as : Exprs, (check σ E x).1 = 0 → (checkElems σ E as).1 = 0 → (check σ E (.meth x as pre)).1 = 0 := by
  have h : ∀ as : Exprs, (checkElems σ E as).1 = 0 → checkArgs σ E as [] = 0 := by
    intro as
    induction as using Exprs.rec (motive_1 := fun _ => True) (motive_3 := fun _ => True) with
    | nil => intro _; simp [checkArgs]
    | cons e r _ ih =>
        intro h
        have h' : (check σ E e).1 + (checkElems σ E r).1 = 0 := h
        simp [checkArgs, ih (by omega)]
        omega
    | _ => trivial
  intro as hx ha
  simp [check, hx, h as ha]

/-! ## What is well typed but refused -/

/-- **A `match` without `_` is refused**, also if its arms cover all values. -/
theorem exhaustive_match_violated :
    (∀ σ ret E e as, ¬ Wild as → checkS σ ret E (.match_ e as) ≠ 0)
    ∧ ∀ σ ret Γ n, Ok σ ret Γ (.match_ (.int n) (.cons false (.block .nil) .nil)) := by
  refine ⟨?_, ?_⟩
  · intro σ ret E e as h
    have h' : as.hasDefault = false := by
      cases hd : as.hasDefault with
      | false => rfl
      | true => exact absurd ((wild_iff as).1 hd) h
    simp [checkS, h', err]
  · intro σ ret Γ n
    exact .match_ .int (.cons (.block .nil) .nil)

/-- **A string is a condition for `if`, but not for `? :`.** -/
theorem string_condition_violated (σ : Ctx) (ret : Ty) (E : Env) (Γ : Types) (pre : Option Ty) :
    Typed σ Γ (.tern .str (.int 1) (.int 2) pre) (.int .i32)
    ∧ (check σ E (.tern .str (.int 1) (.int 2) pre)).1 = 1
    ∧ checkS σ ret E (.ite .str (.block .nil) (.block .nil)) = 0 :=
  ⟨.tern .str .int .int (Or.inr .string) (.same (.int trivial trivial)), rfl, rfl⟩

/-- **A statement behind `return`, `break` or `continue` is an error**, whatever it is. -/
theorem dead_code_violated (σ : Ctx) (ret : Ty) (E : Env) (s s' : Stmt) (r : Stmts) (dead : Bool)
    (h : Leaves s) : checkB σ ret E dead (.cons s (.cons s' r)) ≠ 0 := by
  simp [checkB, (leaves_iff s).2 h, err]

/-- such a function can be well typed -/
theorem dead_code_demo (σ : Ctx) :
    OkFn σ ⟨[], .void, .cons (.ret none) (.cons (.expr (.int 1)) .nil)⟩
    ∧ checkFn σ ⟨[], .void, .cons (.ret none) (.cons (.expr (.int 1)) .nil)⟩ = 1 :=
  ⟨.cons (by simp) (.leave rfl) (.cons (by simp) (.expr .int) .nil), rfl⟩

end Verif.TypeCheck
