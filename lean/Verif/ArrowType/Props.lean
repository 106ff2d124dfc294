import Verif.ArrowType.Model

/-!
# Arrow lambdas: when they return the value of their expression, and when not
-/

namespace Verif.ArrowType
open Spec

theorem conv_self {t : Ty} {v : Val} (h : v.ty = t) : conv t v = v := by
  subst h
  cases v <;> rfl

/-- The type of a result of C. -/
theorem arith_ty (o : Op) (a b : Val) : some (arith o a b).ty = binTy o (some a.ty) (some b.ty) := by
  cases o <;> cases a <;> cases b <;> rfl

/-- Values of expressions have the type `double` if those of the argument are. -/
theorem ty_mono (e : E) : ∀ (v w : Val), v.ty = .int → w.ty = .dbl → (eval [v] e).ty = .dbl → (eval [w] e).ty = .dbl := by
  induction e with
  | x i =>
    intro v w hv hw h
    cases i with
    | zero => exact hw
    | succ i => cases i <;> simp [eval, Val.ty] at h
  | n k => intro v w _ _ h; cases h
  | q k => intro v w _ _ _; rfl
  | bin o a b iha ihb =>
    intro v w hv hw h
    have ha := iha v w hv hw
    have hb := ihb v w hv hw
    have h1 := arith_ty o (eval [v] a) (eval [v] b)
    have h2 := arith_ty o (eval [w] a) (eval [w] b)
    simp only [eval] at h ⊢
    rw [h] at h1
    generalize (eval [v] a).ty = ta at *
    generalize (eval [v] b).ty = tb at *
    generalize (eval [w] a).ty = ua at *
    generalize (eval [w] b).ty = ub at *
    generalize (arith o (eval [w] a) (eval [w] b)).ty = u at *
    cases o <;> cases ta <;> cases tb <;> cases ua <;> cases ub <;> simp_all [binTy]

/-- In direct bodies the types that are found are those of C. -/
theorem infer_direct {e : E} (h : Direct e) : ∀ (s : Option Ty), ∃ t, (infer s e).2 = some t ∧ (∀ p, s = some p → (infer s e).1 = some p) ∧
    ∀ v : Val, ((infer s e).1 = none ∨ (infer s e).1 = some v.ty) → (eval [v] e).ty = t := by
  induction h with
  | n k => intro s; exact ⟨.int, rfl, fun _ h => h, fun _ _ => rfl⟩
  | q k => intro s; exact ⟨.dbl, rfl, fun _ h => h, fun _ _ => rfl⟩
  | @xl o a _ ih =>
    intro s
    obtain ⟨tb, h2, h3, h4⟩ := ih s
    cases s with
    | none =>
      have hi : infer none (.bin o (.x 0) a) = (some tb, binTy o (some tb) (some tb)) := by
        simp only [infer, h2, E.isVar, if_true]
      obtain ⟨t, ht⟩ : ∃ t, binTy o (some tb) (some tb) = some t := by cases o <;> simp [binTy]
      refine ⟨t, by rw [hi]; exact ht, fun p hp => (by cases hp), ?_⟩
      intro v hvt
      rw [hi] at hvt
      have hvt : tb = v.ty := by
        rcases hvt with hvt | hvt
        · cases hvt
        · injection hvt
      have hb : (eval [v] a).ty = tb := by
        cases hs : (infer none a).1 with
        | none => exact h4 v (Or.inl hs)
        | some p =>
          by_cases hp : p = v.ty
          · exact h4 v (Or.inr (by rw [hs, hp]))
          · cases p with
            | int =>
              have hd : v.ty = .dbl := by
                cases hh : v.ty with
                | int => exact absurd hh.symm hp
                | dbl => rfl
              rw [hvt, hd]
              exact ty_mono a (.int 0) v rfl hd (by rw [h4 (.int 0) (Or.inr hs), hvt, hd])
            | dbl =>
              have hd : v.ty = .int := by
                cases hh : v.ty with
                | dbl => exact absurd hh.symm hp
                | int => rfl
              rw [hvt, hd]
              cases hh : (eval [v] a).ty with
              | int => rfl
              | dbl =>
                have := ty_mono a v (.dbl 0) hd rfl hh
                rw [h4 (.dbl 0) (Or.inr hs), hvt, hd] at this
                cases this
      have := arith_ty o (eval [v] (.x 0)) (eval [v] a)
      rw [hb, show (eval [v] (.x 0)).ty = v.ty from rfl, ← hvt, ht] at this
      injection this
    | some p =>
      have hp := h3 p rfl
      have hi : infer (some p) (.bin o (.x 0) a) = (some p, binTy o (some p) (some tb)) := by
        simp only [infer, h2, hp]
      obtain ⟨t, ht⟩ : ∃ t, binTy o (some p) (some tb) = some t := by cases o <;> cases p <;> cases tb <;> simp [binTy]
      refine ⟨t, by rw [hi]; exact ht, fun q hq => by rw [hi]; exact hq, ?_⟩
      intro v hvt
      rw [hi] at hvt
      have hvt : p = v.ty := by
        rcases hvt with hvt | hvt
        · cases hvt
        · injection hvt
      have hb := h4 v (Or.inr (by rw [hp, hvt]))
      have := arith_ty o (eval [v] (.x 0)) (eval [v] a)
      rw [hb, show (eval [v] (.x 0)).ty = v.ty from rfl, ← hvt, ht] at this
      injection this
  | @lx o a _ ih =>
    intro s
    obtain ⟨ta, h2, h3, h4⟩ := ih s
    cases hs : (infer s a).1 with
    | none =>
      have hi : infer s (.bin o a (.x 0)) = (some ta, binTy o (some ta) (some ta)) := by
        simp only [infer, h2, hs, E.isVar, if_true]
      obtain ⟨t, ht⟩ : ∃ t, binTy o (some ta) (some ta) = some t := by cases o <;> simp [binTy]
      refine ⟨t, by rw [hi]; exact ht, ?_, ?_⟩
      · intro p hp
        rw [h3 p hp] at hs
        cases hs
      · intro v hvt
        rw [hi] at hvt
        have hvt : ta = v.ty := by
          rcases hvt with hvt | hvt
          · cases hvt
          · injection hvt
        have ha := h4 v (Or.inl hs)
        have := arith_ty o (eval [v] a) (eval [v] (.x 0))
        rw [ha, show (eval [v] (.x 0)).ty = v.ty from rfl, ← hvt, ht] at this
        injection this
    | some p =>
      have hi : infer s (.bin o a (.x 0)) = (some p, binTy o (some ta) (some p)) := by
        simp only [infer, h2, hs]
      obtain ⟨t, ht⟩ : ∃ t, binTy o (some ta) (some p) = some t := by cases o <;> cases p <;> cases ta <;> simp [binTy]
      refine ⟨t, by rw [hi]; exact ht, ?_, ?_⟩
      · intro q hq
        rw [hi, ← hs]
        exact h3 q hq
      · intro v hvt
        rw [hi] at hvt
        have hvt : p = v.ty := by
          rcases hvt with hvt | hvt
          · cases hvt
          · injection hvt
        have ha := h4 v (Or.inr (by rw [hs, hvt]))
        have := arith_ty o (eval [v] a) (eval [v] (.x 0))
        rw [ha, show (eval [v] (.x 0)).ty = v.ty from rfl, ← hvt, ht] at this
        injection this
  | @both o a b _ _ iha ihb =>
    intro s
    obtain ⟨ta, a2, a3, a4⟩ := iha s
    obtain ⟨tb, b2, b3, b4⟩ := ihb (infer s a).1
    have hi : infer s (.bin o a b) = ((infer (infer s a).1 b).1, binTy o (some ta) (some tb)) := by
      simp only [infer, a2, b2]
    obtain ⟨t, ht⟩ : ∃ t, binTy o (some ta) (some tb) = some t := by cases o <;> cases ta <;> cases tb <;> simp [binTy]
    refine ⟨t, by rw [hi]; exact ht, ?_, ?_⟩
    · intro p hp
      rw [hi]
      exact b3 p (a3 p hp)
    · intro v hvt
      rw [hi] at hvt
      have ha : (eval [v] a).ty = ta := by
        cases hs : (infer s a).1 with
        | none => exact a4 v (Or.inl hs)
        | some p =>
          have := b3 p hs
          rcases hvt with hvt | hvt
          · exact absurd (hvt.symm.trans this) (by simp)
          · exact a4 v (Or.inr (by rw [hs, ← this, hvt]))
      have hb := b4 v hvt
      have := arith_ty o (eval [v] a) (eval [v] b)
      rw [ha, hb, ht] at this
      injection this

theorem fillAll_some (p : Ty) (calls : List (List Val)) (h : ∀ as ∈ calls, as.length = 1) : fillAll [some p] calls = [some p] := by
  induction calls with
  | nil => rfl
  | cons as calls ih =>
    obtain ⟨v, rfl⟩ : ∃ v, as = [v] := List.length_eq_one_iff.1 (h as (by simp))
    exact ih (fun x hx => h x (List.mem_cons_of_mem _ hx))

/-- **One parameter** (partial): a lambda `x -> e` whose parameter is always next to something of known type returns the value of `e` in all calls with arguments of the type that was
found for `x`. -/
theorem single_partial {e : E} (h : Direct e) {p t : Ty} (hp : parse (.single (.simple e)) = .ok ([some p], t)) (calls : List (List Val))
    (hc : ∀ as ∈ calls, ∃ v, as = [v] ∧ v.ty = p) :
    callAll (.single (.simple e)) calls = .ok (results e calls) := by
  obtain ⟨u, h2, _, h4⟩ := infer_direct h none
  simp only [parse, Res.ok.injEq, Prod.mk.injEq, List.cons.injEq, and_true] at hp
  obtain ⟨hp1, hp2⟩ := hp
  rw [h2] at hp2
  have hp2 : u = t := hp2
  subst hp2
  have hf : fillAll [some p] calls = [some p] := fillAll_some p calls (fun as has => by obtain ⟨v, rfl, _⟩ := hc as has; rfl)
  simp only [callAll, parse, Lam.body, Body.expr, hp1, h2, Option.getD_some, Res.ok_bind, hf, results]
  congr 1
  apply List.map_congr_left
  intro as has
  obtain ⟨v, rfl, hv⟩ := hc as has
  simp only [passArgs, conv_self hv]
  exact conv_self (h4 v (Or.inr (by rw [hp1, hv])))

/-- `x -> (x * 2.5) + 1` with fractions; it meets the hypotheses. -/
example : callAll (.single (.simple (.bin .add (.bin .mul (.x 0) (.q (5/2))) (.n 1)))) [[.dbl (1/2)], [.dbl 3]] =
    .ok [.dbl (9/4), .dbl (17/2)] := by
  rw [single_partial (p := .dbl) (t := .dbl) (.both _ (.xl _ (.q _)) (.n _)) rfl _ (by
    intro as has
    simp only [List.mem_cons, List.not_mem_nil, or_false] at has
    rcases has with rfl | rfl
    · exact ⟨_, rfl, rfl⟩
    · exact ⟨_, rfl, rfl⟩)]
  decide +kernel

theorem eval_int {e : E} (h : IntOnly e) {as : List Val} (ha : ∀ v ∈ as, v.ty = .int) : (eval as e).ty = .int := by
  induction e with
  | x i =>
    simp only [eval, List.getD_eq_getElem?_getD]
    cases hg : as[i]? with
    | none => rfl
    | some v => exact ha v (List.mem_of_getElem? hg)
  | n v => rfl
  | q v => exact absurd h (by simp [IntOnly])
  | bin o a b iha ihb =>
    have := arith_ty o (eval as a) (eval as b)
    rw [iha h.1, ihb h.2] at this
    simp only [eval]
    cases o <;> simpa [binTy] using this

theorem infer_int {e : E} (h : IntOnly e) : ∀ (s : Option Ty), s ≠ some .dbl → (infer s e).1 ≠ some .dbl ∧ (infer s e).2 ≠ some .dbl := by
  induction e with
  | x i => intro s hs; exact ⟨hs, hs⟩
  | n v => intro s hs; exact ⟨hs, by simp [infer]⟩
  | q v => exact absurd h (by simp [IntOnly])
  | bin o a b iha ihb =>
    intro s hs
    obtain ⟨a1, a2⟩ := iha h.1 s hs
    obtain ⟨b1, b2⟩ := ihb h.2 _ a1
    simp only [infer]
    generalize (infer s a).1 = s1 at *
    generalize (infer s a).2 = ta at *
    generalize (infer s1 b).1 = s2 at *
    generalize (infer s1 b).2 = tb at *
    rcases ta with _ | ta <;> rcases tb with _ | tb
    · exact ⟨b1, by cases o <;> simp [binTy]⟩
    · cases tb with
      | dbl => exact absurd rfl b2
      | int =>
        simp only
        split
        · exact ⟨by simp, by cases o <;> simp [binTy]⟩
        · exact ⟨b1, by cases o <;> simp [binTy]⟩
    · cases ta with
      | dbl => exact absurd rfl a2
      | int =>
        simp only
        split
        · exact ⟨by simp, by cases o <;> simp [binTy]⟩
        · exact ⟨b1, by cases o <;> simp [binTy]⟩
    · cases ta with
      | dbl => exact absurd rfl a2
      | int =>
        cases tb with
        | dbl => exact absurd rfl b2
        | int => exact ⟨b1, by cases o <;> simp [binTy]⟩

theorem fill_int : ∀ (ps : List (Option Ty)) (as : List Ty), (∀ p ∈ ps, p ≠ some .dbl) → (∀ a ∈ as, a = .int) → ∀ p ∈ fill ps as, p ≠ some .dbl
  | [], _, _, _ => by simp [fill]
  | p :: ps, [], h, _ => h
  | p :: ps, a :: as, h, ha => by
    intro q hq
    simp only [fill, List.mem_cons] at hq
    rcases hq with rfl | hq
    · have h1 := h p (by simp)
      have h2 := ha a (by simp)
      cases p with
      | none => simp [h2]
      | some p => simpa using h1
    · exact fill_int ps as (fun x hx => h x (List.mem_cons_of_mem _ hx)) (fun x hx => ha x (List.mem_cons_of_mem _ hx)) q hq

theorem fillAll_int (calls : List (List Val)) (hc : ∀ as ∈ calls, ∀ v ∈ as, v.ty = .int) : ∀ (ps : List (Option Ty)), (∀ p ∈ ps, p ≠ some .dbl) →
    ∀ p ∈ fillAll ps calls, p ≠ some .dbl := by
  induction calls with
  | nil => intro ps h; exact h
  | cons as calls ih =>
    intro ps h
    refine ih (fun x hx => hc x (List.mem_cons_of_mem _ hx)) (fill ps (as.map Val.ty)) (fill_int ps _ h ?_)
    intro a ha
    obtain ⟨v, hv, rfl⟩ := List.mem_map.1 ha
    exact hc as (by simp) v hv

theorem passArgs_int : ∀ (ps : List (Option Ty)) (as : List Val), (∀ p ∈ ps, p ≠ some .dbl) → (∀ v ∈ as, v.ty = .int) → passArgs ps as = as
  | [], as, _, _ => by cases as <;> rfl
  | none :: ps, [], _, _ => rfl
  | some p :: ps, [], _, _ => rfl
  | none :: ps, a :: as, h, ha => by
    simp only [passArgs]
    rw [passArgs_int ps as (fun x hx => h x (List.mem_cons_of_mem _ hx)) (fun x hx => ha x (List.mem_cons_of_mem _ hx))]
  | some p :: ps, a :: as, h, ha => by
    have hp : p = .int := by
      cases p with
      | int => rfl
      | dbl => exact absurd rfl (h (some .dbl) (by simp))
    simp only [passArgs]
    rw [passArgs_int ps as (fun x hx => h x (List.mem_cons_of_mem _ hx)) (fun x hx => ha x (List.mem_cons_of_mem _ hx)),
      conv_self (by rw [hp]; exact ha a (by simp))]

/-- **Integers** (partial): a lambda of any of the forms that has only integers in its body and no parameter declared `f64` returns the value of its expression in all calls with
integers. -/
theorem integers_partial {l : Lam} {e : E} (hb : l.body.expr = some e) (h : IntOnly e) (hd : ∀ ps b, l = .multi ps b → ∀ p ∈ ps, p ≠ some .dbl)
    (calls : List (List Val)) (hc : ∀ as ∈ calls, ∀ v ∈ as, v.ty = .int) : callAll l calls = .ok (results e calls) := by
  have key : ∀ ps : List (Option Ty), (∀ p ∈ ps, p ≠ some .dbl) →
      (calls.map fun as => conv .int (eval (passArgs (fillAll ps calls) as) e)) = results e calls := by
    intro ps hps
    apply List.map_congr_left
    intro as has
    rw [passArgs_int _ as (fillAll_int calls hc ps hps) (hc as has)]
    exact conv_self (eval_int h (hc as has))
  cases l with
  | multi ps b =>
    simp only [Lam.body] at hb
    simp only [callAll, parse, Res.ok_bind, Lam.body, hb]
    rw [key ps (hd ps b rfl)]
  | single b =>
    simp only [Lam.body] at hb
    cases b with
    | bare => cases hb
    | simple e' =>
      simp only [Body.expr, Option.some.injEq] at hb
      subst hb
      obtain ⟨h1, h2⟩ := infer_int h none (by simp)
      have hr : ((infer none e').2).getD .int = .int := by
        cases hh : (infer none e').2 with
        | none => rfl
        | some t =>
          cases t with
          | int => rfl
          | dbl => exact absurd hh h2
      simp only [callAll, parse, Res.ok_bind, Lam.body, Body.expr, hr]
      rw [key [(infer none e').1] (by intro p hp; simp only [List.mem_cons, List.not_mem_nil, or_false] at hp; rw [hp]; exact h1)]
    | long e' =>
      simp only [Body.expr, Option.some.injEq] at hb
      subst hb
      obtain ⟨h1, _⟩ := infer_int h none (by simp)
      simp only [callAll, parse, Res.ok_bind, Lam.body, Body.expr]
      rw [key [(infer none e').1] (by intro p hp; simp only [List.mem_cons, List.not_mem_nil, or_false] at hp; rw [hp]; exact h1)]

/-- `(a, b) -> a + b` called twice -/
example : callAll (.multi [none, none] (.simple (.bin .add (.x 0) (.x 1)))) [[.int 10, .int 20], [.int 1, .int 2]] = .ok [.int 30, .int 3] := by
  rw [integers_partial (e := .bin .add (.x 0) (.x 1)) rfl ⟨trivial, trivial⟩
    (by intro ps b hh; injection hh with h1 h2; subst h1; simp) _ (by
      intro as has v hv
      simp only [List.mem_cons, List.not_mem_nil, or_false] at has
      rcases has with rfl | rfl <;> simp only [List.mem_cons, List.not_mem_nil, or_false] at hv <;> rcases hv with rfl | rfl <;> rfl)]
  rfl

theorem arith_number (a b : Val) :
    number (arith .add a b) = number a + number b ∧ number (arith .mul a b) = number a * number b ∧
    number (arith .lt a b) = if number a < number b then 1 else 0 := by
  cases a <;> cases b <;> refine ⟨?_, ?_, ?_⟩ <;> simp only [arith, number, Rat.intCast_add, Rat.intCast_mul, Rat.intCast_lt_intCast] <;>
    (try rfl) <;> split <;> simp_all

/-- A `double` made of a number is that number. -/
theorem conv_dbl (v : Val) : conv .dbl v = .dbl (number v) := by cases v <;> rfl

theorem cut_ne {r : Rat} (h : r.den ≠ 1) : number (.int (r.num.tdiv r.den)) ≠ r := by
  intro hc
  apply h
  have := congrArg Rat.den hc
  simpa [number] using this.symm

/-- **Violated, for the identity**: `let id = x -> x; id(r)` is cut to an integer, for every fraction `r`. -/
theorem identity_violated {r : Rat} (h : r.den ≠ 1) :
    callAll (.single (.simple (.x 0))) [[.dbl r]] = .ok [.int (r.num.tdiv r.den)] ∧ results (.x 0) [[.dbl r]] = [.dbl r] ∧
    number (.int (r.num.tdiv r.den)) ≠ number (.dbl r) :=
  ⟨rfl, rfl, cut_ne h⟩

/-- **Violated, for several parameters**: `(a: f64, b: f64) -> a + b` returns an integer, for all fractions and whether or not the types are written. -/
theorem multi_violated (ps : List (Option Ty)) (hps : ps = [some .dbl, some .dbl] ∨ ps = [none, none]) {a b : Rat} (h : (a + b).den ≠ 1) :
    callAll (.multi ps (.simple (.bin .add (.x 0) (.x 1)))) [[.dbl a, .dbl b]] = .ok [.int ((a + b).num.tdiv (a + b).den)] ∧
    results (.bin .add (.x 0) (.x 1)) [[.dbl a, .dbl b]] = [.dbl (a + b)] ∧
    number (.int ((a + b).num.tdiv (a + b).den)) ≠ number (.dbl (a + b)) := by
  refine ⟨?_, rfl, cut_ne h⟩
  rcases hps with rfl | rfl <;> rfl

/-- **Violated, for blocks**: `x -> { ...; return x * c; }` with a fraction `c` returns an integer; with the `return` alone it is right. -/
theorem long_violated (c : Rat) {r : Rat} (h : (r * c).den ≠ 1) :
    callAll (.single (.long (.bin .mul (.x 0) (.q c)))) [[.dbl r]] = .ok [.int ((r * c).num.tdiv (r * c).den)] ∧
    callAll (.single (.simple (.bin .mul (.x 0) (.q c)))) [[.dbl r]] = .ok [.dbl (r * c)] ∧
    number (.int ((r * c).num.tdiv (r * c).den)) ≠ number (.dbl (r * c)) :=
  ⟨rfl, rfl, cut_ne h⟩

/-- **Violated, for the order of calls**: after a call of `(a, b) -> a < b` with integers, calls with fractions compare
their integer parts. -/
theorem first_call_violated (i j : Int) (a b : Rat) :
    callAll (.multi [none, none] (.simple (.bin .lt (.x 0) (.x 1)))) [[.int i, .int j], [.dbl a, .dbl b]] =
      .ok [.int (if i < j then 1 else 0), .int (if a.num.tdiv a.den < b.num.tdiv b.den then 1 else 0)] ∧
    callAll (.multi [none, none] (.simple (.bin .lt (.x 0) (.x 1)))) [[.dbl a, .dbl b]] = .ok [.int (if a < b then 1 else 0)] :=
  ⟨rfl, rfl⟩

/-- `0.25 < 0.5` is true as a first call and false after `f(1, 2)`. -/
example : callAll (.multi [none, none] (.simple (.bin .lt (.x 0) (.x 1)))) [[.int 1, .int 2], [.dbl (1/4), .dbl (1/2)]] = .ok [.int 1, .int 0] ∧
    callAll (.multi [none, none] (.simple (.bin .lt (.x 0) (.x 1)))) [[.dbl (1/4), .dbl (1/2)]] = .ok [.int 1] := by decide +kernel

/-- **Violated, for `return;`**: `x -> { return; }` makes the compiler read through `NULL`. -/
theorem bare_violated (calls : List (List Val)) : callAll (.single .bare) calls = .ub := rfl

/-- **Passed lambdas** (partial): `(a, b, ...) -> e` with only integers, passed for `fn(int, int, ...) -> int`, returns the value of its expression. -/
theorem passed_partial {b : Body} {e : E} (hb : b.expr = some e) (h : IntOnly e) (n : Nat) (as : List Val) (ha : ∀ v ∈ as, v.ty = .int) :
    callPassed (.multi (List.replicate n none) b) (List.replicate n .int) .int as = .ok (eval as e) := by
  have hf : fill (List.replicate n none) (List.replicate n .int) = (List.replicate n .int).map some := by
    induction n with
    | zero => rfl
    | succ n ih => simp only [List.replicate_succ, fill, List.map_cons, ih, Option.getD_none]
  have hp := passArgs_int ((List.replicate n Ty.int).map some) as (by
    intro p hp
    simp only [List.map_replicate] at hp
    rw [(List.mem_replicate.1 hp).2]; simp) ha
  simp only [callPassed, parse, Res.ok_bind, Lam.body, hb, hf, and_self, if_true, hp]
  rw [conv_self (eval_int h ha)]

/-- **Violated, for passed lambdas**: each lambda with a list of parameters that is passed for a `fn(...) -> f64`, whatever its body, is called by a pointer to a function of another
type; so is `x -> x`. -/
theorem passed_violated (l : Lam) (hl : l = .single (.simple (.x 0)) ∨ ∃ ps b, l = .multi ps b) (ps : List Ty) (as : List Val) :
    callPassed l ps .dbl as = .ub := by
  rcases hl with rfl | ⟨qs, b, rfl⟩
  · simp [callPassed, parse, Lam.body, Body.expr, infer]
  · simp only [callPassed, parse, Res.ok_bind, Lam.body]
    cases b.expr <;> simp

/-- **Violated, for declared types**: a lambda whose parameter is declared with another type than that of the `fn` it is passed for is called by a pointer to a function of another
type, whatever its body; the type checker reports it only if it is asked to. -/
theorem declared_violated {p q : Ty} (h : p ≠ q) (b : Body) (as : List Val) : callPassed (.multi [some p] b) [q] .int as = .ub := by
  simp only [callPassed, parse, Res.ok_bind, Lam.body, fill, Option.getD_some, List.map_cons, List.map_nil]
  cases b.expr with
  | none => rfl
  | some e => simp [h]

end Verif.ArrowType
