import Verif.NumType.Model

/-! # C80: a variable declared without a type holds the value of its initialiser -/

namespace Verif.NumType

open Spec

variable {F : Floats}

/-! ## Values have their types -/

theorem two_pow_bits (w : W) : (2 : Int) ^ w.bits = 2 * 2 ^ (w.bits - 1) ∧ (0 : Int) < 2 ^ (w.bits - 1) := by
  cases w <;> decide

/-- Wrapping gives a number in range. -/
theorem wrap_inR (w : W) (sg : Bool) (n : Int) : InR w sg (wrap w sg n) := by
  obtain ⟨h1, h2⟩ := two_pow_bits w
  unfold InR wrap
  cases sg
  · simp only [Bool.false_eq_true, if_false]
    have hp : (0 : Int) < 2 ^ w.bits := by omega
    exact ⟨Int.emod_nonneg _ (by omega), Int.emod_lt_of_pos _ hp⟩
  · simp only [if_true]
    have hp : (0 : Int) < 2 ^ w.bits := by omega
    have a := Int.emod_nonneg (n + 2 ^ (w.bits - 1)) (b := 2 ^ w.bits) (by omega)
    have b := Int.emod_lt_of_pos (n + 2 ^ (w.bits - 1)) hp
    omega

/-- A number in range stays. -/
theorem wrap_self (w : W) (sg : Bool) (n : Int) (h : InR w sg n) : wrap w sg n = n := by
  obtain ⟨h1, h2⟩ := two_pow_bits w
  unfold InR at h
  unfold wrap
  cases sg
  · simp only [Bool.false_eq_true, if_false] at h ⊢
    exact Int.emod_eq_of_lt h.1 h.2
  · simp only [if_true] at h ⊢
    rw [Int.emod_eq_of_lt (by omega) (by omega)]
    omega

/-- Only numbers in range stay. -/
theorem wrap_ne (w : W) (sg : Bool) (n : Int) (h : ¬ InR w sg n) : wrap w sg n ≠ n :=
  fun e => h (e ▸ wrap_inR w sg n)

theorem conv_hasTy (t : NTy) (v u : Val F) (h : conv t v = .ok u) : HasTy t u := by
  unfold conv at h
  split at h
  · cases h
    cases truth v <;> simp [ofBool, HasTy]
  · cases h
    exact wrap_inR _ _ _
  · split at h
    · split at h
      · cases h
        assumption
      · cases h
    · cases h
  · split at h
    · split at h
      · cases h
        assumption
      · cases h
    · cases h
  all_goals
    cases h
    trivial

/-- Converting a value to the type it has changes nothing. -/
theorem conv_self (t : NTy) (v : Val F) (h : HasTy t v) : conv t v = .ok v := by
  cases t <;> cases v <;> first
    | exact h.elim
    | rfl
    | exact congrArg Res.ok (congrArg Val.int (wrap_self _ _ _ h))
    | (rcases h with rfl | rfl <;> simp [conv, ofBool, truth])

theorem fit_hasTy (w : W) (s : Bool) (n : Int) (v : Val F) (h : fit w s n = .ok v) : HasTy (.int w s) v := by
  unfold fit at h
  cases s
  · simp only [Bool.false_eq_true, if_false] at h
    cases h
    exact wrap_inR _ _ _
  · simp only [if_true] at h
    split at h
    · cases h
      assumption
    · cases h

theorem intOp_hasTy (w : W) (s : Bool) (op : Op) (m n : Int) (v : Val F) (h : intOp w s op m n = .ok v) :
    HasTy (.int w s) v := by
  unfold intOp at h
  split at h
  · exact fit_hasTy _ _ _ _ h
  · exact fit_hasTy _ _ _ _ h
  · exact fit_hasTy _ _ _ _ h
  · split at h
    · cases h
    · exact fit_hasTy _ _ _ _ h
  · split at h
    · cases h
    · exact fit_hasTy _ _ _ _ h
  · split at h
    · exact fit_hasTy _ _ _ _ h
    · cases h
  · split at h
    · cases h
      exact wrap_inR _ _ _
    · cases h
  · cases h
    exact wrap_inR _ _ _

theorem apply_hasTy (t : NTy) (op : Op) (a b v : Val F) (h : apply t op a b = .ok v) (hc : op.isCmp = false) :
    HasTy t v := by
  unfold apply at h
  split at h
  · rw [hc, if_neg (by simp)] at h
    exact intOp_hasTy _ _ _ _ _ _ h
  · rw [hc, if_neg (by simp)] at h
    split at h
    · cases h
      trivial
    · cases h
  · rw [hc, if_neg (by simp)] at h
    split at h
    · cases h
      trivial
    · cases h
  · cases h

theorem ofBool_hasTy (b : Bool) : HasTy (F := F) i32 (ofBool b) := by
  cases b <;> simp [ofBool, HasTy, InR, W.bits]

theorem apply_cmp_hasTy (t : NTy) (op : Op) (a b v : Val F) (h : apply t op a b = .ok v) (hc : op.isCmp = true) :
    HasTy i32 v := by
  unfold apply at h
  split at h
  · rw [hc, if_pos rfl] at h
    cases h
    exact ofBool_hasTy _
  · rw [hc, if_pos rfl] at h
    cases h
    exact ofBool_hasTy _
  · rw [hc, if_pos rfl] at h
    cases h
    exact ofBool_hasTy _
  · cases h

theorem okb {α β : Type} (a : α) (f : α → Res β) : (Res.ok a >>= f) = f a := rfl

theorem ok_of_bind {α β : Type} {x : Res α} {f : α → Res β} {b : β} (h : (x >>= f) = .ok b) :
    ∃ a, x = .ok a ∧ f a = .ok b := by
  cases x with
  | ok a => exact ⟨a, rfl, h⟩
  | panic => cases h
  | ub => cases h

/-- The value of an expression has the type of the expression. -/
theorem value_hasTy (tmp : Ex F → NTy → NTy) (Γ : Name → NTy) (ρ : Name → Val F) (hρ : ∀ x, HasTy (Γ x) (ρ x)) (e : Ex F)
    (v : Val F) (hl : ∀ n, e = .lit n → n < 2 ^ 64) (h : value tmp Γ ρ e = .ok v) : HasTy (ctype tmp Γ e) v := by
  cases e with
  | lit n =>
    have h64 := hl n rfl
    cases h
    unfold ctype litTy
    split
    · simp only [HasTy, InR, W.bits, if_true]
      omega
    · split
      · simp only [HasTy, InR, W.bits, if_true]
        omega
      · simp only [HasTy, InR, W.bits, Bool.false_eq_true, if_false]
        omega
  | flt x =>
    cases h
    trivial
  | var x =>
    cases h
    exact hρ x
  | neg a =>
    unfold value at h
    obtain ⟨va, -, h⟩ := ok_of_bind h
    obtain ⟨u, hu, h⟩ := ok_of_bind h
    have ht := conv_hasTy _ _ _ hu
    simp only [ctype]
    split at h
    · rename_i hp
      rw [hp]
      exact fit_hasTy _ _ _ _ h
    · cases h
      revert ht
      generalize promote (ctype tmp Γ a) = t
      cases t <;> simp [HasTy]
    · cases h
      revert ht
      generalize promote (ctype tmp Γ a) = t
      cases t <;> simp [HasTy]
    · cases h
  | lnot a =>
    unfold value at h
    obtain ⟨va, -, h⟩ := ok_of_bind h
    cases h
    exact ofBool_hasTy _
  | bnot a =>
    unfold value at h
    obtain ⟨va, -, h⟩ := ok_of_bind h
    simp only [ctype]
    split at h
    · rename_i hp
      rw [hp]
      cases h
      exact wrap_inR _ _ _
    · cases h
  | bin op a b =>
    unfold value at h
    by_cases h1 : op = .and
    · rw [if_pos h1] at h
      obtain ⟨va, -, h⟩ := ok_of_bind h
      have : ctype tmp Γ (.bin op a b) = i32 := by simp [ctype, h1]
      rw [this]
      split at h
      · obtain ⟨vb, -, h⟩ := ok_of_bind h
        cases h
        exact ofBool_hasTy _
      · cases h
        exact ofBool_hasTy _
    · rw [if_neg h1] at h
      by_cases h2 : op = .or
      · rw [if_pos h2] at h
        obtain ⟨va, -, h⟩ := ok_of_bind h
        have : ctype tmp Γ (.bin op a b) = i32 := by simp [ctype, h2]
        rw [this]
        split at h
        · cases h
          exact ofBool_hasTy _
        · obtain ⟨vb, -, h⟩ := ok_of_bind h
          cases h
          exact ofBool_hasTy _
      · rw [if_neg h2] at h
        by_cases h3 : op = .shl ∨ op = .shr
        · rw [if_pos h3] at h
          have hc : op.isCmp = false := by rcases h3 with rfl | rfl <;> rfl
          have : ctype tmp Γ (.bin op a b) = promote (ctype tmp Γ a) := by
            rcases h3 with rfl | rfl <;> simp [ctype, Op.isCmp]
          rw [this]
          obtain ⟨va, -, h⟩ := ok_of_bind h
          obtain ⟨ua, -, h⟩ := ok_of_bind h
          obtain ⟨vb, -, h⟩ := ok_of_bind h
          obtain ⟨ub, -, h⟩ := ok_of_bind h
          exact apply_hasTy _ _ _ _ _ h hc
        · rw [if_neg h3] at h
          obtain ⟨va, -, h⟩ := ok_of_bind h
          obtain ⟨ua, -, h⟩ := ok_of_bind h
          obtain ⟨vb, -, h⟩ := ok_of_bind h
          obtain ⟨ub, -, h⟩ := ok_of_bind h
          rw [not_or] at h3
          cases hc : op.isCmp with
          | true =>
            have : ctype tmp Γ (.bin op a b) = i32 := by simp [ctype, hc]
            rw [this]
            exact apply_cmp_hasTy _ _ _ _ _ h hc
          | false =>
            have : ctype tmp Γ (.bin op a b) = usual (ctype tmp Γ a) (ctype tmp Γ b) := by
              simp [ctype, hc, h1, h2, h3]
            rw [this]
            exact apply_hasTy _ _ _ _ _ h hc
  | cast t a =>
    unfold value at h
    obtain ⟨va, -, h⟩ := ok_of_bind h
    exact conv_hasTy _ _ _ h
  | cond c a b =>
    unfold value at h
    obtain ⟨vc, -, h⟩ := ok_of_bind h
    simp only [ctype]
    split at h
    · obtain ⟨va, -, h⟩ := ok_of_bind h
      exact conv_hasTy _ _ _ h
    · obtain ⟨va, -, h⟩ := ok_of_bind h
      exact conv_hasTy _ _ _ h
  | coal a b =>
    unfold value at h
    simp only [ctype]
    obtain ⟨va, -, h⟩ := ok_of_bind h
    obtain ⟨ua, -, h⟩ := ok_of_bind h
    split at h
    · exact conv_hasTy _ _ _ h
    · obtain ⟨vb, -, h⟩ := ok_of_bind h
      exact conv_hasTy _ _ _ h

/-! ## The types the compiler finds -/

/-- C80: an integer type whose numbers all fit `int` is computed with as `int`, any other as itself. -/
theorem promoted (w : W) (g : Bool) :
    ((∀ n, InR w g n → InR .w32 true n) → promote (.int w g) = i32) ∧
    ((∃ n, InR w g n ∧ ¬ InR .w32 true n) → promote (.int w g) = .int w g) := by
  constructor
  · intro h
    cases w <;> cases g
    all_goals first
      | rfl
      | (have := h (2 ^ 31) (by simp [InR, W.bits])
         simp [InR, W.bits] at this)
      | (have := h (2 ^ 63 - 1) (by simp [InR, W.bits])
         simp [InR, W.bits] at this)
  · rintro ⟨n, h, h'⟩
    cases w <;> cases g <;> simp only [InR, W.bits] at h h' <;>
      first
        | rfl
        | (exfalso; simp at h h'; omega)

theorem promote_isInt (t : NTy) : (promote t).isInt = t.isInt := by
  cases t with
  | int w s => cases w <;> rfl
  | _ => rfl

/-- An integer and a float give the float. -/
theorem usual_mixed (t s : NTy) (h : t.isInt ≠ s.isInt) : usual t s = if t.isInt then s else t := by
  have hp : ∀ w g, ∃ w' g', promote (.int w g) = .int w' g' := by
    intro w g
    cases w <;> exact ⟨_, _, rfl⟩
  cases t with
  | int w g =>
    obtain ⟨w', g', e⟩ := hp w g
    unfold usual
    rw [e]
    cases s <;> simp [NTy.isInt] at h ⊢ <;> rfl
  | bool => cases s <;> simp [NTy.isInt] at h ⊢ <;> rfl
  | f32 =>
    cases s with
    | int w g =>
      obtain ⟨w', g', e⟩ := hp w g
      unfold usual
      rw [e]
      rfl
    | bool => rfl
    | f32 => exact absurd rfl h
    | f64 => exact absurd rfl h
  | f64 =>
    cases s with
    | int w g =>
      obtain ⟨w', g', e⟩ := hp w g
      unfold usual
      rw [e]
      rfl
    | bool => rfl
    | f32 => exact absurd rfl h
    | f64 => exact absurd rfl h

/-- What holds of an expression in which the compiler is right. -/
structure Right (Γ : Name → NTy) (ρ : Name → Val F) (e : Ex F) : Prop where
  z : ztype Γ e = .known (type Γ e)
  c : ctype (tmpOf Γ) Γ e = type Γ e
  v : value (tmpOf Γ) Γ ρ e = meaning Γ ρ e

theorem right_of_kept (Γ : Name → NTy) (ρ : Name → Val F) (e : Ex F) :
    ∀ m, Kept Γ e m → Right Γ ρ e ∧ (m = false → infer Γ e = some (type Γ e)) := by
  induction e with
  | lit n =>
    intro m h
    have : litTy n = i32 := by
      unfold litTy
      rw [if_pos (show n < 2 ^ 31 from h)]
    exact ⟨⟨by simp [ztype, type, ctype, this], rfl, rfl⟩, fun _ => by simp [infer, type, ctype, this]⟩
  | flt x => intro m _; exact ⟨⟨rfl, rfl, rfl⟩, fun _ => rfl⟩
  | var x => intro m _; exact ⟨⟨rfl, rfl, rfl⟩, fun _ => rfl⟩
  | neg a ih =>
    intro m ⟨ha, hp⟩
    obtain ⟨⟨hz, hc, hv⟩, hi⟩ := ih m ha
    have ht : type Γ (.neg a) = type Γ a := hp
    refine ⟨⟨by rw [ht]; exact hz, by rw [ht]; simp only [ctype, hc, hp], ?_⟩, fun hm => by rw [ht]; exact hi hm⟩
    have hc' : ctype (tmpOf Γ) Γ a = ctype (fun _ t => t) Γ a := hc
    unfold meaning value
    rw [hv, hc']
    rfl
  | lnot a ih =>
    intro m ⟨ha, hp⟩
    obtain ⟨⟨hz, hc, hv⟩, hi⟩ := ih m ha
    have ht : type Γ (.lnot a) = type Γ a := by rw [hp]; rfl
    refine ⟨⟨by rw [ht]; exact hz, by rw [ht, hp]; rfl, ?_⟩, fun hm => by rw [ht]; exact hi hm⟩
    unfold meaning value
    rw [hv]
    rfl
  | bnot a ih =>
    intro m ⟨ha, hp⟩
    obtain ⟨⟨hz, hc, hv⟩, hi⟩ := ih m ha
    have ht : type Γ (.bnot a) = type Γ a := hp
    refine ⟨⟨by rw [ht]; exact hz, by rw [ht]; simp only [ctype, hc, hp], ?_⟩, fun hm => by rw [ht]; exact hi hm⟩
    have hc' : ctype (tmpOf Γ) Γ a = ctype (fun _ t => t) Γ a := hc
    unfold meaning value
    rw [hv, hc']
    rfl
  | bin op a b iha ihb =>
    intro m h
    -- the operands are right
    have hab : Right Γ ρ a ∧ Right Γ ρ b := by
      unfold Kept at h
      split at h
      · exact ⟨(iha _ h.1).1, (ihb _ h.2).1⟩
      · split at h
        · exact ⟨(iha _ h.1).1, (ihb _ h.2.1).1⟩
        · split at h
          · exact ⟨(iha _ h.1).1, (ihb _ h.2.1).1⟩
          · split at h
            · exact ⟨(iha _ h.1).1, (ihb _ h.2.1).1⟩
            · exact ⟨(iha _ h.2.2.1).1, (ihb _ h.2.2.2).1⟩
    obtain ⟨⟨za, ca, va⟩, ⟨zb, cb, vb⟩⟩ := hab
    have hc : ctype (tmpOf Γ) Γ (.bin op a b) = type Γ (.bin op a b) := by
      have ca' : ctype (tmpOf Γ) Γ a = ctype (fun _ t => t) Γ a := ca
      have cb' : ctype (tmpOf Γ) Γ b = ctype (fun _ t => t) Γ b := cb
      unfold type
      rw [ctype, ctype, ca', cb']
    have hv : value (tmpOf Γ) Γ ρ (.bin op a b) = meaning Γ ρ (.bin op a b) := by
      have ca' : ctype (tmpOf Γ) Γ a = ctype (fun _ t => t) Γ a := ca
      have cb' : ctype (tmpOf Γ) Γ b = ctype (fun _ t => t) Γ b := cb
      have va' : value (tmpOf Γ) Γ ρ a = value (fun _ t => t) Γ ρ a := va
      have vb' : value (tmpOf Γ) Γ ρ b = value (fun _ t => t) Γ ρ b := vb
      unfold meaning
      rw [value, value, ca', cb', va', vb']
    have hz : ztype Γ (.bin op a b) = .known (type Γ (.bin op a b)) ∧
        (m = false → infer Γ (.bin op a b) = some (type Γ (.bin op a b))) := by
      unfold Kept at h
      simp only [ztype, za, zb, ztypeBin]
      split at h
      · rename_i h1
        exact ⟨by simp [h1, type, ctype], fun _ => by simp [infer, h1, type, ctype]⟩
      · rename_i h1
        split at h
        · rename_i h2
          have hi : (type Γ a).isInt = (type Γ b).isInt := by
            rw [h.2.2.1, h.2.2.2]
            rfl
          have ht : type Γ (.bin op a b) = i32 := by
            rcases h2 with rfl | rfl <;> simp [type, ctype]
          refine ⟨by rw [if_neg h1, if_pos hi, ht, h.2.2.1], fun _ => ?_⟩
          rw [ht]
          rcases h2 with rfl | rfl <;> simp [infer]
        · rename_i h2
          rw [not_or] at h2
          split at h
          · rename_i h3
            have ht : type Γ (.bin op a b) = type Γ a := by
              have hp : promote (ctype (fun _ t => t) Γ a) = ctype (fun _ t => t) Γ a := h.2.2.1
              rcases h3 with rfl | rfl <;> simp [type, ctype, Op.isCmp, hp]
            refine ⟨by rw [if_neg h1, if_pos h.2.2.2, ht], fun hm => ?_⟩
            rw [ht]
            have hi := (iha _ h.1).2 hm
            simp only [infer, hi]
            rcases h3 with rfl | rfl <;> simp [Op.isCmp] <;> intro hh <;> rw [hh]
          · rename_i h3
            rw [not_or] at h3
            have ht : type Γ (.bin op a b) = usual (type Γ a) (type Γ b) := by
              simp [type, ctype, h1, h2, h3]
            split at h
            · rename_i h4
              refine ⟨by rw [if_neg h1, if_pos h4, ht, ← h.2.2], fun hm => ?_⟩
              rw [ht, ← h.2.2]
              have hi := (iha _ h.1).2 hm
              simp only [infer, hi]
              simp [h1, h2]
              intro hh
              rw [hh]
            · rename_i h4
              refine ⟨?_, fun hm => by rw [h.1] at hm; cases hm⟩
              rw [if_neg h1, if_neg h4, if_pos h.2.1, ht, usual_mixed _ _ h4]
    exact ⟨⟨hz.1, hc, hv⟩, hz.2⟩
  | cast t a ih =>
    intro m h
    obtain ⟨⟨hz, hc, hv⟩, -⟩ := ih true h
    refine ⟨⟨by simp [ztype, hz, type, ctype], rfl, ?_⟩, fun _ => rfl⟩
    unfold meaning value
    rw [hv]
    rfl
  | cond c a b => intro m h; exact h.elim
  | coal a b iha ihb =>
    intro m ⟨ha, hb, hi, ht⟩
    obtain ⟨⟨za, ca, va⟩, ia⟩ := iha false ha
    obtain ⟨⟨zb, cb, vb⟩, -⟩ := ihb true hb
    have ia := ia rfl
    have ca' : ctype (tmpOf Γ) Γ a = ctype (fun _ t => t) Γ a := ca
    have cb' : ctype (tmpOf Γ) Γ b = ctype (fun _ t => t) Γ b := cb
    have htmp : tmpOf Γ a (ctype (fun _ t => t) Γ a) = ctype (fun _ t => t) Γ a := by
      unfold tmpOf
      rw [ia]
      rfl
    have htt : type Γ (.coal a b) = type Γ a := ht.symm
    refine ⟨⟨?_, ?_, ?_⟩, fun _ => by rw [htt]; exact ia⟩
    · rw [htt]
      simp [ztype, za, zb, ztypeBin, Op.isCmp, hi]
    · unfold type
      rw [ctype, ctype, ca', cb', htmp]
    · have va' : value (tmpOf Γ) Γ ρ a = value (fun _ t => t) Γ ρ a := va
      have vb' : value (tmpOf Γ) Γ ρ b = value (fun _ t => t) Γ ρ b := vb
      unfold meaning
      rw [value, value, ca', cb', va', vb', htmp]

theorem kept_lit (Γ : Name → NTy) (e : Ex F) (m : Bool) (h : Kept Γ e m) (n : Nat) (he : e = .lit n) : n < 2 ^ 64 := by
  subst he
  have : n < 2 ^ 31 := h
  omega

/-- **C80 (what holds).** Where the left operand of every operator has the type of the result, `let x = e;` declares `x` with the type
of `e`, and `x` holds what `e` means, for all values of the variables. -/
theorem let_holds_the_value_partial (Γ : Name → NTy) (ρ : Name → Val F) (hρ : ∀ x, HasTy (Γ x) (ρ x)) (e : Ex F)
    (h : Kept Γ e true) : declared Γ e = some (type Γ e) ∧ letValue Γ ρ e = meaning Γ ρ e := by
  obtain ⟨⟨hz, hc, hv⟩, -⟩ := right_of_kept Γ ρ e true h
  have hd : declared Γ e = some (type Γ e) := by
    unfold declared
    rw [hz]
  refine ⟨hd, ?_⟩
  unfold letValue
  rw [hd, hv]
  cases hm : meaning Γ ρ e with
  | ok v => exact conv_self _ _ (value_hasTy _ Γ ρ hρ e v (fun n he => kept_lit Γ e _ h n he) hm)
  | panic => rfl
  | ub => rfl

/-- Conditions. -/
theorem right_of_logic (Γ : Name → NTy) (ρ : Name → Val F) (hρ : ∀ x, HasTy (Γ x) (ρ x)) (e : Ex F) (h : Logic Γ e) :
    (∃ t, ztype Γ e = .known t ∧ t.isInt ∧ ∀ v, meaning Γ ρ e = .ok v → conv t v = .ok v) ∧
      value (tmpOf Γ) Γ ρ e = meaning Γ ρ e := by
  have base : ∀ e : Ex F, Kept Γ e true → (type Γ e).isInt →
      (∃ t, ztype Γ e = .known t ∧ t.isInt ∧ ∀ v, meaning Γ ρ e = .ok v → conv t v = .ok v) ∧
      value (tmpOf Γ) Γ ρ e = meaning Γ ρ e := by
    intro e hk hi
    obtain ⟨⟨hz, hc, hv⟩, -⟩ := right_of_kept Γ ρ e true hk
    exact ⟨⟨_, hz, hi, fun v hm => conv_self _ _ (value_hasTy _ Γ ρ hρ e v (fun n he => kept_lit Γ e _ hk n he) hm)⟩, hv⟩
  have bool01 : ∀ (t : NTy), t.isInt → ∀ b : Bool, conv (F := F) t (ofBool b) = .ok (ofBool b) := by
    intro t ht b
    refine conv_self _ _ ?_
    cases t with
    | int w s => cases w <;> cases s <;> cases b <;> simp [ofBool, HasTy, InR, W.bits]
    | bool => cases b <;> simp [ofBool, HasTy]
    | f32 => cases ht
    | f64 => cases ht
  induction e with
  | lnot a ih =>
    obtain ⟨⟨t, hz, hi, -⟩, hv⟩ := ih h
    refine ⟨⟨t, hz, hi, ?_⟩, ?_⟩
    · intro v hm
      unfold meaning value at hm
      obtain ⟨va, -, hm⟩ := ok_of_bind hm
      cases hm
      exact bool01 t hi _
    · unfold meaning value
      rw [hv]
      rfl
  | bin op a b iha ihb =>
    unfold Logic at h
    split at h
    · rename_i hop
      obtain ⟨⟨t, hz, hi, -⟩, hv⟩ := iha h.1
      obtain ⟨⟨t', hz', hi', -⟩, hv'⟩ := ihb h.2
      refine ⟨⟨t, ?_, hi, ?_⟩, ?_⟩
      · simp only [ztype, hz, hz', ztypeBin]
        rcases hop with rfl | rfl <;> simp [Op.isCmp, hi, hi']
      · intro v hm
        unfold meaning value at hm
        rcases hop with rfl | rfl
        · rw [if_pos rfl] at hm
          obtain ⟨va, -, hm⟩ := ok_of_bind hm
          split at hm
          · obtain ⟨vb, -, hm⟩ := ok_of_bind hm
            cases hm
            exact bool01 t hi _
          · cases hm
            exact bool01 t hi _
        · rw [if_neg (by simp), if_pos rfl] at hm
          obtain ⟨va, -, hm⟩ := ok_of_bind hm
          split at hm
          · cases hm
            exact bool01 t hi _
          · obtain ⟨vb, -, hm⟩ := ok_of_bind hm
            cases hm
            exact bool01 t hi _
      · have va' : value (tmpOf Γ) Γ ρ a = value (fun _ t => t) Γ ρ a := hv
        have vb' : value (tmpOf Γ) Γ ρ b = value (fun _ t => t) Γ ρ b := hv'
        unfold meaning
        rw [value, value, va', vb']
        rcases hop with rfl | rfl <;> simp
    · exact base _ h.1 h.2
  | _ => exact base _ h.1 h.2

/-- **C80 (conditions).** `!`, `&&` and `||` over integers and `bool`s of any types can be named: the variable is 0 or 1
as the expression is. -/
theorem let_holds_conditions (Γ : Name → NTy) (ρ : Name → Val F) (hρ : ∀ x, HasTy (Γ x) (ρ x)) (e : Ex F)
    (h : Logic Γ e) : letValue Γ ρ e = meaning Γ ρ e := by
  obtain ⟨⟨t, hz, -, hcv⟩, hv⟩ := right_of_logic Γ ρ hρ e h
  have hd : declared Γ e = some t := by
    unfold declared
    rw [hz]
  unfold letValue
  rw [hd, hv]
  cases hm : meaning Γ ρ e with
  | ok v => exact hcv v hm
  | panic => rfl
  | ub => rfl

theorem plain_same (Γ : Name → NTy) (ρ : Name → Val F) (e : Ex F) (h : Plain e) :
    ctype (tmpOf Γ) Γ e = type Γ e ∧ value (tmpOf Γ) Γ ρ e = meaning Γ ρ e := by
  unfold type meaning
  induction e with
  | lit | flt | var => exact ⟨rfl, rfl⟩
  | neg a ih | lnot a ih | bnot a ih | cast t a ih =>
    obtain ⟨h1, h2⟩ := ih h
    exact ⟨by simp only [ctype, h1], by simp only [value, h1, h2]⟩
  | bin op a b iha ihb =>
    obtain ⟨h1, h2⟩ := iha h.1
    obtain ⟨h3, h4⟩ := ihb h.2
    exact ⟨by simp only [ctype, h1, h3], by simp only [value, h1, h2, h3, h4]⟩
  | cond c a b ihc iha ihb =>
    obtain ⟨h1, h2⟩ := iha h.2.1
    obtain ⟨h3, h4⟩ := ihb h.2.2
    obtain ⟨-, h6⟩ := ihc h.1
    exact ⟨by simp only [ctype, h1, h3], by simp only [value, h1, h2, h3, h4, h6]⟩
  | coal => exact h.elim

/-- **C80 (choices).** `let x = c ? a : b;` leaves the type to the C compiler, and `x` holds what the expression means, whatever the types of the
branches. -/
theorem let_holds_choices (Γ : Name → NTy) (ρ : Name → Val F) (hρ : ∀ x, HasTy (Γ x) (ρ x)) (c a b : Ex F)
    (h : Plain (.cond c a b)) (hz : ztype Γ (.cond c a b) ≠ .rejected) :
    letValue Γ ρ (.cond c a b) = meaning Γ ρ (.cond c a b) := by
  obtain ⟨hc, hv⟩ := plain_same Γ ρ _ h
  have hu : ztype Γ (.cond c a b) = .unknown := by
    unfold ztype at hz ⊢
    split at hz
    · exact absurd rfl hz
    · rename_i hn
      rw [if_neg hn]
  have hd : declared Γ (.cond c a b) = some (type Γ (.cond c a b)) := by
    unfold declared
    rw [hu, ← hc]
    rfl
  unfold letValue
  rw [hd, hv]
  cases hm : meaning Γ ρ (.cond c a b) with
  | ok v => exact conv_self _ _ (value_hasTy _ Γ ρ hρ _ v (fun n he => by cases he) hm)
  | panic => rfl
  | ub => rfl

/-- **C80 (casts).** A cast around an expression without `??` settles the type: `let x = (T)e;` holds `e` converted to
`T`, unless the program is rejected. -/
theorem let_holds_casts (Γ : Name → NTy) (ρ : Name → Val F) (hρ : ∀ x, HasTy (Γ x) (ρ x)) (t : NTy) (a : Ex F)
    (h : Plain a) (hz : ztype Γ a ≠ .rejected) : letValue Γ ρ (.cast t a) = meaning Γ ρ (.cast t a) := by
  obtain ⟨-, hv⟩ := plain_same Γ ρ (.cast t a) h
  have hd : declared Γ (.cast t a) = some t := by
    unfold declared
    simp [ztype, hz]
  unfold letValue
  rw [hd, hv]
  cases hm : meaning Γ ρ (.cast t a) with
  | ok v => exact conv_self _ _ (value_hasTy _ Γ ρ hρ _ v (fun n he => by cases he) hm)
  | panic => rfl
  | ub => rfl

/-- **C80 (rejected).** The compiler rejects no operator between numbers of one kind. -/
theorem same_kind_accepted (op : Op) (t s : NTy) (h : t.isInt = s.isInt) :
    ztypeBin op (.known t) (.known s) ≠ .rejected := by
  simp only [ztypeBin, h, if_true]
  split <;> simp

/-! ## A case -/

/-- `let z = x * 2 + (i64)y < w && flag == 1` and `let m = i + 0.5`, `let k = (x - 1) ?? y`, with `x w : i64`, `y : i32`,
`i : i32`, `flag : bool`. -/
def caseΓ : Name → NTy
  | "x" | "w" => .int .w64 true
  | "flag" => .bool
  | _ => i32

theorem case_kept :
    Kept (F := F) caseΓ (.bin .and (.bin .lt (.bin .add (.bin .mul (.var "x") (.lit 2)) (.cast (.int .w64 true) (.var "y")))
      (.var "w")) (.bin .eq (.var "flag") (.lit 1))) true ∧
    (∀ d : F.D, Kept (F := F) caseΓ (.bin .add (.var "i") (.flt d)) true) ∧
    Kept (F := F) caseΓ (.coal (.bin .sub (.var "x") (.lit 1)) (.var "y")) true := by
  refine ⟨?_, fun d => ?_, ?_⟩ <;>
    simp [Kept, type, ctype, caseΓ, Op.isCmp, NTy.isInt, litTy, usual, usualP, promote, W.bits, Op.isArith]

theorem case_logic : Logic (F := F) caseΓ (.bin .or (.lnot (.var "flag")) (.var "x")) := by
  simp [Logic, Kept, type, ctype, caseΓ, NTy.isInt]

theorem case_choice : Plain (F := F) (.cond (.var "flag") (.var "x") (.lit 0)) ∧
    ztype (F := F) caseΓ (.cond (.var "flag") (.var "x") (.lit 0)) ≠ .rejected := by
  simp [Plain, ztype]

/-! ## What fails -/

theorem int_ne {m n : Int} (h : m ≠ n) : (Res.ok (Val.int (F := F) m)) ≠ .ok (.int n) := by
  intro e
  injection e with e
  injection e with e
  exact h e

/-- **C80 fails: large literals.** `let x = 5000000000;` declares an `int`: no number from 2³¹ on survives. -/
theorem large_literal_violated (Γ : Name → NTy) (ρ : Name → Val F) (n : Nat) (hn : 2 ^ 31 ≤ n) :
    declared Γ (.lit n : Ex F) = some i32 ∧ meaning Γ ρ (.lit n) = .ok (.int n) ∧
      letValue Γ ρ (.lit n) ≠ meaning Γ ρ (.lit n) := by
  refine ⟨rfl, rfl, int_ne (wrap_ne _ _ _ ?_)⟩
  simp only [InR, W.bits, if_true]
  omega

/-- **C80 fails: the left operand has the say.** In `let x = 1 + n;` with `n : i64`, `x` is an `int`: it holds the sum only if that is an
`int`. -/
theorem left_operand_violated (Γ : Name → NTy) (ρ : Name → Val F) (n : Name) (k : Int) (ht : Γ n = .int .w64 true)
    (hv : ρ n = .int k) (h1 : 2 ^ 31 ≤ 1 + k) (h2 : 1 + k < 2 ^ 63) :
    declared Γ (.bin .add (.lit 1) (.var n) : Ex F) = some i32 ∧
      meaning Γ ρ (.bin .add (.lit 1) (.var n)) = .ok (.int (1 + k)) ∧
      letValue Γ ρ (.bin .add (.lit 1) (.var n)) ≠ .ok (.int (1 + k)) := by
  have hw : wrap .w64 true k = k := wrap_self _ _ _ (by simp only [InR, W.bits, if_true]; omega)
  have hw1 : wrap .w64 true 1 = 1 := wrap_self _ _ _ (by simp only [InR, W.bits, if_true]; omega)
  have hm : ∀ tmp, value (F := F) tmp Γ ρ (.bin .add (.lit 1) (.var n)) = .ok (.int (1 + k)) := by
    intro tmp
    have hlit : litTy 1 = i32 := rfl
    have hu : usual i32 (.int .w64 true) = .int .w64 true := rfl
    simp only [value, ctype, hlit, ht, hu, hv]
    simp only [reduceCtorEq, if_false, or_self]
    simp only [okb, conv]
    rw [hw, show ((1 : Nat) : Int) = 1 from rfl, hw1]
    simp only [apply, Op.isCmp, Bool.false_eq_true, if_false, intOp, fit, if_true]
    rw [if_pos]
    simp only [InR, W.bits, if_true]
    omega
  have hd : declared Γ (.bin .add (.lit 1) (.var n) : Ex F) = some i32 := by
    simp [declared, ztype, ztypeBin, ht, Op.isCmp, NTy.isInt]
  refine ⟨hd, hm _, ?_⟩
  unfold letValue
  rw [hd, hm]
  refine int_ne (wrap_ne _ _ _ ?_)
  simp only [InR, W.bits, if_true]
  omega

/-- The operands of a sum of two bytes. -/
theorem byte_sum (tmp : Ex F → NTy → NTy) (Γ : Name → NTy) (ρ : Name → Val F) (a b : Name) (m n : Int)
    (ha : Γ a = .int .w8 false) (hb : Γ b = .int .w8 false) (va : ρ a = .int m) (vb : ρ b = .int n)
    (hm : InR .w8 false m) (hn : InR .w8 false n) : value tmp Γ ρ (.bin .add (.var a) (.var b)) = .ok (.int (m + n)) := by
  simp only [InR, W.bits, Bool.false_eq_true, if_false] at hm hn
  have hwm : wrap .w32 true m = m := wrap_self _ _ _ (by simp only [InR, W.bits, if_true]; omega)
  have hwn : wrap .w32 true n = n := wrap_self _ _ _ (by simp only [InR, W.bits, if_true]; omega)
  have hu : usual (.int .w8 false) (.int .w8 false) = i32 := rfl
  simp only [value, ctype, ha, hb, hu, va, vb]
  simp only [reduceCtorEq, if_false, or_self]
  simp only [okb, conv]
  rw [hwm, hwn]
  simp only [apply, Op.isCmp, Bool.false_eq_true, if_false, intOp, fit, if_true]
  rw [if_pos]
  simp only [InR, W.bits, if_true]
  omega

/-- **C80 fails: bytes.** The sum of two `u8`s above 255 is right in `(a + b) / 2`, and loses 256 when it is named first: the variable is a
`u8`. -/
theorem byte_sum_violated (Γ : Name → NTy) (ρ : Name → Val F) (a b : Name) (m n : Int)
    (ha : Γ a = .int .w8 false) (hb : Γ b = .int .w8 false) (va : ρ a = .int m) (vb : ρ b = .int n)
    (hm : InR .w8 false m) (hn : InR .w8 false n) (h : 255 < m + n) :
    meaning Γ ρ (.bin .add (.var a) (.var b)) = .ok (.int (m + n)) ∧
      letValue Γ ρ (.bin .add (.var a) (.var b)) = .ok (.int (m + n - 256)) := by
  refine ⟨byte_sum _ Γ ρ a b m n ha hb va vb hm hn, ?_⟩
  have hd : declared Γ (.bin .add (.var a) (.var b) : Ex F) = some (.int .w8 false) := by
    simp [declared, ztype, ztypeBin, ha, hb, Op.isCmp]
  unfold letValue
  rw [hd, byte_sum _ Γ ρ a b m n ha hb va vb hm hn]
  show Res.ok (Val.int (wrap .w8 false (m + n))) = _
  simp only [InR, wrap, W.bits, Bool.false_eq_true, if_false] at hm hn ⊢
  congr 2
  omega

/-- **C80 fails: negated bytes.** `let x = -b;` with a `u8` is `256 - b`. -/
theorem byte_negated_violated (Γ : Name → NTy) (ρ : Name → Val F) (b : Name) (n : Int) (hb : Γ b = .int .w8 false)
    (vb : ρ b = .int n) (hn : InR .w8 false n) (h : n ≠ 0) :
    meaning Γ ρ (.neg (.var b)) = .ok (.int (-n)) ∧ letValue Γ ρ (.neg (.var b)) = .ok (.int (256 - n)) := by
  simp only [InR, W.bits, Bool.false_eq_true, if_false] at hn
  have hw : wrap .w32 true n = n := wrap_self _ _ _ (by simp only [InR, W.bits, if_true]; omega)
  have hm : ∀ tmp, value (F := F) tmp Γ ρ (.neg (.var b)) = .ok (.int (-n)) := by
    intro tmp
    have hp : promote (.int .w8 false) = i32 := rfl
    simp only [value, ctype, hb, hp, vb]
    show (match Val.int (F := F) (wrap .w32 true n), i32 with
      | .int n, .int b s => fit b s (-n)
      | .f32 x, _ => .ok (.f32 (F.negS x))
      | .f64 x, _ => .ok (.f64 (F.negD x))
      | _, _ => .panic) = _
    rw [hw]
    simp only [fit, if_true]
    rw [if_pos]
    simp only [InR, W.bits, if_true]
    omega
  refine ⟨hm _, ?_⟩
  have hd : declared Γ (.neg (.var b) : Ex F) = some (.int .w8 false) := by simp [declared, ztype, hb]
  unfold letValue
  rw [hd, hm]
  show Res.ok (Val.int (wrap .w8 false (-n))) = _
  simp only [wrap, W.bits, Bool.false_eq_true, if_false]
  congr 2
  omega

/-- **C80 fails: shifts.** `let x = b << 8;` with a `u8` is always 0. -/
theorem byte_shift_violated (Γ : Name → NTy) (ρ : Name → Val F) (b : Name) (n : Int) (hb : Γ b = .int .w8 false)
    (vb : ρ b = .int n) (hn : InR .w8 false n) :
    meaning Γ ρ (.bin .shl (.var b) (.lit 8)) = .ok (.int (n * 256)) ∧
      letValue Γ ρ (.bin .shl (.var b) (.lit 8)) = .ok (.int 0) := by
  simp only [InR, W.bits, Bool.false_eq_true, if_false] at hn
  have hw : wrap .w32 true n = n := wrap_self _ _ _ (by simp only [InR, W.bits, if_true]; omega)
  have hw8 : wrap .w32 true ((8 : Nat) : Int) = 8 := by decide
  have hm : ∀ tmp, value (F := F) tmp Γ ρ (.bin .shl (.var b) (.lit 8)) = .ok (.int (n * 256)) := by
    intro tmp
    have hp : promote (.int .w8 false) = i32 := rfl
    have hl : promote (litTy 8) = i32 := rfl
    simp only [value, ctype, hb, hp, vb, hl]
    simp only [reduceCtorEq, if_false, true_or, if_true]
    simp only [okb, conv]
    rw [hw, hw8]
    simp only [apply, Op.isCmp, Bool.false_eq_true, if_false, intOp]
    rw [if_pos (by simp [W.bits])]
    have h8 : (2 : Int) ^ (8 : Int).toNat = 256 := by decide
    rw [h8]
    simp only [fit, if_true]
    rw [if_pos]
    simp only [InR, W.bits, if_true]
    omega
  refine ⟨hm _, ?_⟩
  have hd : declared Γ (.bin .shl (.var b) (.lit 8) : Ex F) = some (.int .w8 false) := by
    simp [declared, ztype, ztypeBin, hb, Op.isCmp, NTy.isInt]
  unfold letValue
  rw [hd, hm]
  show Res.ok (Val.int (wrap .w8 false (n * 256))) = _
  simp only [wrap, W.bits, Bool.false_eq_true, if_false]
  congr 2
  omega

/-- **C80 fails: counting booleans.** `let n = p + q;` with two `bool`s that are true means 2 and is 1. -/
theorem bool_sum_violated (Γ : Name → NTy) (ρ : Name → Val F) (p q : Name) (hp : Γ p = .bool) (hq : Γ q = .bool)
    (vp : ρ p = .int 1) (vq : ρ q = .int 1) :
    meaning Γ ρ (.bin .add (.var p) (.var q)) = .ok (.int 2) ∧
      letValue Γ ρ (.bin .add (.var p) (.var q)) = .ok (.int 1) := by
  have hw : wrap .w32 true 1 = 1 := by decide
  have hm : ∀ tmp, value (F := F) tmp Γ ρ (.bin .add (.var p) (.var q)) = .ok (.int 2) := by
    intro tmp
    have hu : usual .bool .bool = i32 := rfl
    simp only [value, ctype, hp, hq, hu, vp, vq]
    simp only [reduceCtorEq, if_false, or_self]
    simp only [okb, conv]
    rw [hw]
    simp [apply, Op.isCmp, intOp, fit, InR, W.bits]
  refine ⟨hm _, ?_⟩
  have hd : declared Γ (.bin .add (.var p) (.var q) : Ex F) = some .bool := by
    simp [declared, ztype, ztypeBin, hp, hq, Op.isCmp]
  unfold letValue
  rw [hd, hm]
  rfl

/-- **C80 fails: signs.** `let d = i - u;` with `i : i32` and `u : u32`: the difference is computed without sign; a difference below zero is
`2³² + i - u` where it is used directly, and `i - u` when it is named. -/
theorem sign_violated (Γ : Name → NTy) (ρ : Name → Val F) (i u : Name) (m n : Int) (hi : Γ i = i32)
    (hu : Γ u = .int .w32 false) (vi : ρ i = .int m) (vu : ρ u = .int n) (h0 : 0 ≤ m) (h1 : m < n) (h2 : n < 2 ^ 31) :
    meaning Γ ρ (.bin .sub (.var i) (.var u)) = .ok (.int (2 ^ 32 + (m - n))) ∧
      letValue Γ ρ (.bin .sub (.var i) (.var u)) = .ok (.int (m - n)) := by
  have hwm : wrap .w32 false m = m := wrap_self _ _ _ (by simp only [InR, W.bits, Bool.false_eq_true, if_false]; omega)
  have hwn : wrap .w32 false n = n := wrap_self _ _ _ (by simp only [InR, W.bits, Bool.false_eq_true, if_false]; omega)
  have hm : ∀ tmp, value (F := F) tmp Γ ρ (.bin .sub (.var i) (.var u)) = .ok (.int (2 ^ 32 + (m - n))) := by
    intro tmp
    have hus : usual i32 (.int .w32 false) = .int .w32 false := rfl
    simp only [value, ctype, hi, hu, hus, vi, vu]
    simp only [reduceCtorEq, if_false, or_self]
    simp only [okb, conv]
    rw [hwm, hwn]
    simp only [apply, Op.isCmp, Bool.false_eq_true, if_false, intOp, fit, wrap, W.bits]
    congr 2
    omega
  refine ⟨hm _, ?_⟩
  have hd : declared Γ (.bin .sub (.var i) (.var u) : Ex F) = some i32 := by
    simp [declared, ztype, ztypeBin, hi, hu, Op.isCmp, NTy.isInt]
  unfold letValue
  rw [hd, hm]
  show Res.ok (Val.int (wrap .w32 true (2 ^ 32 + (m - n)))) = _
  simp only [wrap, W.bits, if_true]
  congr 2
  omega

/-- **C80 fails: precision.** The product of an `f32` and an `f64` is an `f64`; named, it is rounded to an `f32`. -/
theorem precision_violated (Γ : Name → NTy) (ρ : Name → Val F) (f d : Name) (x : F.S) (y : F.D) (hf : Γ f = .f32)
    (hd : Γ d = .f64) (vf : ρ f = .f32 x) (vd : ρ d = .f64 y) :
    meaning Γ ρ (.bin .mul (.var f) (.var d)) = .ok (.f64 (F.binD .mul (F.up x) y)) ∧
      letValue Γ ρ (.bin .mul (.var f) (.var d)) = .ok (.f32 (F.down (F.binD .mul (F.up x) y))) := by
  have hm : ∀ tmp, value (F := F) tmp Γ ρ (.bin .mul (.var f) (.var d)) = .ok (.f64 (F.binD .mul (F.up x) y)) := by
    intro tmp
    have hus : usual .f32 .f64 = .f64 := rfl
    simp only [value, ctype, hf, hd, hus, vf, vd]
    simp only [reduceCtorEq, if_false, or_self]
    rfl
  refine ⟨hm _, ?_⟩
  have hdd : declared Γ (.bin .mul (.var f) (.var d) : Ex F) = some .f32 := by
    simp [declared, ztype, ztypeBin, hf, hd, Op.isCmp, NTy.isInt]
  unfold letValue
  rw [hdd, hm]
  rfl

/-- **C80 fails: choices in sums.** `let s = (c ? a : b) + d;` has the type of `d` alone: with `a b : i32` and `d : i8` the sum is cut to
eight bits. -/
theorem choice_sum_violated (Γ : Name → NTy) (ρ : Name → Val F) (c a b d : Name) (m n : Int) (ha : Γ a = i32)
    (hb : Γ b = i32) (hd : Γ d = .int .w8 true) (vc : truth (ρ c) = true) (va : ρ a = .int m) (vd : ρ d = .int n)
    (hn : InR .w8 true n) (h0 : 256 ≤ m) (h1 : m < 2 ^ 30) :
    meaning Γ ρ (.bin .add (.cond (.var c) (.var a) (.var b)) (.var d)) = .ok (.int (m + n)) ∧
      letValue Γ ρ (.bin .add (.cond (.var c) (.var a) (.var b)) (.var d)) ≠ .ok (.int (m + n)) := by
  simp only [InR, W.bits, if_true] at hn
  have hwm : wrap .w32 true m = m := wrap_self _ _ _ (by simp only [InR, W.bits, if_true]; omega)
  have hwn : wrap .w32 true n = n := wrap_self _ _ _ (by simp only [InR, W.bits, if_true]; omega)
  have hm : ∀ tmp, value (F := F) tmp Γ ρ (.bin .add (.cond (.var c) (.var a) (.var b)) (.var d)) = .ok (.int (m + n)) := by
    intro tmp
    have hu : usual i32 i32 = i32 := rfl
    have hu' : usual i32 (.int .w8 true) = i32 := rfl
    simp only [value, ctype, ha, hb, hd, hu, hu', va, vd, okb, vc, if_true, reduceCtorEq, if_false, or_self, conv, hwm, hwn]
    simp only [apply, Op.isCmp, Bool.false_eq_true, if_false, intOp, fit, if_true]
    rw [if_pos]
    simp only [InR, W.bits, if_true]
    omega
  refine ⟨hm _, ?_⟩
  have hdd : declared Γ (.bin .add (.cond (.var c) (.var a) (.var b)) (.var d) : Ex F) = some (.int .w8 true) := by
    simp [declared, ztype, ztypeBin, infer, hd, Op.isCmp]
  unfold letValue
  rw [hdd, hm]
  refine int_ne (wrap_ne _ _ _ ?_)
  simp only [InR, W.bits, if_true]
  omega

/-- **C80 fails: `??` after mixed arithmetic.** In `(i + d) ?? 7` with `i : i32` and `d : f64` the sum is held in an
`int`: a sum between 0 and 1 counts as zero, and the answer is 7. -/
theorem coalesce_violated (Γ : Name → NTy) (ρ : Name → Val F) (i d : Name) (n : Int) (y : F.D) (hi : Γ i = i32)
    (hd : Γ d = .f64) (vi : ρ i = .int n) (vd : ρ d = .f64 y)
    (hs : F.nzD (F.binD .add (F.ofD n) y) = true) (ht : F.intD (F.binD .add (F.ofD n) y) = some 0) :
    meaning Γ ρ (.coal (.bin .add (.var i) (.var d)) (.lit 7)) = .ok (.f64 (F.binD .add (F.ofD n) y)) ∧
      value (tmpOf Γ) Γ ρ (.coal (.bin .add (.var i) (.var d)) (.lit 7)) = .ok (.int 7) := by
  have hus : usual i32 .f64 = .f64 := rfl
  have hm : ∀ tmp, value (F := F) tmp Γ ρ (.bin .add (.var i) (.var d)) = .ok (.f64 (F.binD .add (F.ofD n) y)) := by
    intro tmp
    simp only [value, ctype, hi, hd, hus, vi, vd]
    simp only [reduceCtorEq, if_false, or_self]
    rfl
  have hct : ∀ tmp, ctype (F := F) tmp Γ (.bin .add (.var i) (.var d)) = .f64 := by
    intro tmp
    simp [ctype, Op.isCmp, hi, hd, hus]
  constructor
  · unfold meaning
    rw [value, hm, hct]
    show (if truth (Val.f64 (F.binD .add (F.ofD n) y)) then conv (usual .f64 (litTy 7)) _ else _) = _
    rw [if_pos (by exact hs)]
    rfl
  · have htmp : tmpOf Γ (.bin .add (.var i) (.var d) : Ex F) .f64 = i32 := by
      simp [tmpOf, infer, Op.isCmp, hi]
    rw [value, hm, hct, htmp]
    have hc : conv i32 (Val.f64 (F.binD .add (F.ofD n) y)) = .ok (.int 0) := by
      simp only [conv, ht]
      rw [if_pos (by simp [InR, W.bits])]
    simp only [okb, hc]
    rw [if_neg (by simp [truth])]
    have hl : usual i32 (ctype (tmpOf Γ) Γ (.lit 7 : Ex F)) = i32 := rfl
    have hw : wrap .w32 true ((7 : Nat) : Int) = 7 := by decide
    simp only [hl, value, okb, conv, hw]

end Verif.NumType
