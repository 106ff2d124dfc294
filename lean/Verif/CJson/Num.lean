import Verif.CJson.Model

/-!
# Numbers of the JSON library
-/

namespace Verif.CJson

open Spec (Digits Frac Exp sign value)

theorem valueOf_go (n : Nat) : ∀ (ds : List Nat),
    ds.foldl (fun n d => 10 * n + (d - 48)) n = n * 10 ^ ds.length + value ds
  | [] => by simp [value]
  | d :: ds => by
    rw [List.foldl_cons, valueOf_go, value]
    simp only [List.length_cons, Nat.pow_succ]
    rw [Nat.add_mul, Nat.mul_comm 10 n, Nat.mul_assoc, Nat.mul_comm 10 (10 ^ ds.length), Nat.add_assoc]

theorem valueOf_eq (ds : List Nat) : valueOf ds = value ds := by
  unfold valueOf; rw [valueOf_go]; simp

theorem takeWhile_stop {p : Nat → Bool} {a b : List Nat} (ha : ∀ x ∈ a, p x = true)
    (hb : b.head?.all (fun c => !p c) = true) : (a ++ b).takeWhile p = a := by
  rw [List.takeWhile_append_of_pos ha]
  cases b with
  | nil => simp
  | cons c b => simp at hb; simp [hb]

theorem isDigit_iff (c : Nat) : isDigit c = true ↔ 48 ≤ c ∧ c ≤ 57 := by simp [isDigit]

theorem digits_all {ds : List Nat} (h : Digits ds) : ∀ x ∈ ds, isDigit x = true :=
  fun x hx => (isDigit_iff x).2 (h x hx)

theorem digit_num {c : Nat} (h : 48 ≤ c ∧ c ≤ 57) : numChar c = true := by
  simp [numChar, h.1, h.2]

theorem exp_head {ex : List Nat} (h : Exp ex) :
    ex.head?.all (fun c => !isDigit c) = true := by
  rcases h with rfl | ⟨e, sg, ds, rfl, he, -⟩
  · rfl
  · rcases he with rfl | rfl <;> rfl

theorem frac_head {fr ex : List Nat} (hf : Frac fr) (h : Exp ex) :
    (fr ++ ex).head?.all (fun c => !isDigit c) = true := by
  rcases hf with rfl | ⟨ds, rfl, -⟩
  · exact exp_head h
  · rfl

theorem fracLen_eq {fr ex : List Nat} (hf : Frac fr) (h : Exp ex) :
    fracLen (fr ++ ex) = fr.length := by
  rcases hf with rfl | ⟨ds, rfl, hd⟩
  · rcases h with rfl | ⟨e, sg, es, rfl, he, -⟩
    · rfl
    · rcases he with rfl | rfl <;> rfl
  · simp only [List.cons_append, fracLen, if_true, List.length_cons]
    rw [takeWhile_stop (digits_all hd) (exp_head h)]
    omega

theorem expLen_eq {ex : List Nat} (h : Exp ex) : expLen ex = ex.length := by
  rcases h with rfl | ⟨e, sg, ds, rfl, he, hsg, hd, hn⟩
  · rfl
  · have h0 : ds.length ≠ 0 := by
      intro h0; exact hn (List.length_eq_zero_iff.1 h0)
    have htw : ds.takeWhile isDigit = ds := by
      have := takeWhile_stop (digits_all hd) (b := []) rfl
      simpa using this
    have hg : ¬ (e ≠ 101 ∧ e ≠ 69) := by omega
    rcases hsg with rfl | rfl | rfl
    · cases ds with
      | nil => exact absurd rfl hn
      | cons d ds =>
        have hd1 := hd d List.mem_cons_self
        simp only [List.nil_append, expLen, hg, if_false, htw]
        rw [if_neg (by omega)]
        simp only [List.length_cons]
        rw [if_neg (by omega)]
        omega
    · simp only [List.cons_append, List.nil_append, expLen, hg, if_false, htw, true_or, if_true, h0,
        List.length_cons]
      omega
    · simp only [List.cons_append, List.nil_append, expLen, hg, if_false, htw, or_true, if_true, h0,
        List.length_cons]
      omega

theorem frac_chars {fr : List Nat} (h : Frac fr) : ∀ x ∈ fr, numChar x = true := by
  rcases h with rfl | ⟨ds, rfl, hd⟩
  · simp
  · intro x hx
    rcases List.mem_cons.1 hx with rfl | hx
    · rfl
    · exact digit_num (hd x hx)

theorem exp_chars {ex : List Nat} (h : Exp ex) : ∀ x ∈ ex, numChar x = true := by
  rcases h with rfl | ⟨e, sg, ds, rfl, he, hsg, hd, hn⟩
  · simp
  · intro x hx
    rcases List.mem_cons.1 hx with rfl | hx
    · rcases he with rfl | rfl <;> rfl
    · rcases List.mem_append.1 hx with hx | hx
      · rcases hsg with rfl | rfl | rfl
        · cases hx
        · simp at hx; subst hx; rfl
        · simp at hx; subst hx; rfl
      · exact digit_num (hd x hx)

theorem sign_chars (neg : Bool) : ∀ x ∈ sign neg, numChar x = true := by
  cases neg
  · simp [sign]
  · intro x hx; simp [sign] at hx; subst hx; rfl

theorem num_chars {b : Bool} {v : Item} {t : List Nat} (h : Spec.Num b v t) :
    ∀ x ∈ t, numChar x = true := by
  cases h with
  | int neg ds hd hn hs =>
    intro x hx
    rcases List.mem_append.1 hx with hx | hx
    · exact sign_chars neg x hx
    · exact digit_num (hd x hx)
  | real neg ds fr ex hd hf he hne hn hs =>
    intro x hx
    simp only [List.mem_append] at hx
    rcases hx with ((hx | hx) | hx) | hx
    · exact sign_chars neg x hx
    · exact digit_num (hd x hx)
    · exact frac_chars hf x hx
    · exact exp_chars he x hx

/-- What a number starts with. -/
theorem num_head {b : Bool} {v : Item} {t : List Nat} (h : Spec.Num b v t) :
    ∃ c r, t = c :: r ∧ (c = 45 ∨ 48 ≤ c ∧ c ≤ 57 ∨ (b = false ∧ c = 46)) := by
  cases h with
  | int neg ds hd hn hs =>
    cases neg
    · cases ds with
      | nil => exact absurd rfl hn
      | cons d ds => exact ⟨d, ds, rfl, .inr (.inl (hd d List.mem_cons_self))⟩
    · exact ⟨45, ds, rfl, .inl rfl⟩
  | real neg ds fr ex hd hf he hne hn hs =>
    cases neg
    · cases ds with
      | nil =>
        rcases hf with rfl | ⟨es, rfl, -⟩
        · rcases hn with h | h
          · exact absurd rfl h
          · simp at h
        · refine ⟨46, es ++ ex, rfl, .inr (.inr ⟨?_, rfl⟩)⟩
          cases b
          · rfl
          · exact absurd rfl (hs rfl).1
      | cons d ds => exact ⟨d, ds ++ fr ++ ex, by simp [sign], .inr (.inl (hd d List.mem_cons_self))⟩
    · exact ⟨45, ds ++ fr ++ ex, by simp [sign], .inl rfl⟩

/-- The sign that `strtod` consumes. -/
def sgnLen : List Nat → Nat
  | [] => 0
  | c :: _ => if c = 45 then 1 else 0

theorem strtod_eq (t : List Nat) : strtod t =
    if ((t.drop (sgnLen t)).takeWhile isDigit).length = 0 ∧
        fracLen ((t.drop (sgnLen t)).drop ((t.drop (sgnLen t)).takeWhile isDigit).length) ≤ 1 then none
    else
      if fracLen ((t.drop (sgnLen t)).drop ((t.drop (sgnLen t)).takeWhile isDigit).length) = 0 ∧
          expLen (((t.drop (sgnLen t)).drop ((t.drop (sgnLen t)).takeWhile isDigit).length).drop
            (fracLen ((t.drop (sgnLen t)).drop ((t.drop (sgnLen t)).takeWhile isDigit).length))) = 0 then
        some (.num (if sgnLen t = 1 then -(valueOf ((t.drop (sgnLen t)).takeWhile isDigit) : Int)
          else (valueOf ((t.drop (sgnLen t)).takeWhile isDigit) : Int)),
          sgnLen t + ((t.drop (sgnLen t)).takeWhile isDigit).length)
      else some (.real (t.take (sgnLen t + ((t.drop (sgnLen t)).takeWhile isDigit).length +
          fracLen ((t.drop (sgnLen t)).drop ((t.drop (sgnLen t)).takeWhile isDigit).length) +
          expLen (((t.drop (sgnLen t)).drop ((t.drop (sgnLen t)).takeWhile isDigit).length).drop
            (fracLen ((t.drop (sgnLen t)).drop ((t.drop (sgnLen t)).takeWhile isDigit).length))))),
          sgnLen t + ((t.drop (sgnLen t)).takeWhile isDigit).length +
          fracLen ((t.drop (sgnLen t)).drop ((t.drop (sgnLen t)).takeWhile isDigit).length) +
          expLen (((t.drop (sgnLen t)).drop ((t.drop (sgnLen t)).takeWhile isDigit).length).drop
            (fracLen ((t.drop (sgnLen t)).drop ((t.drop (sgnLen t)).takeWhile isDigit).length)))) := by
  cases t <;> rfl

theorem sgnLen_eq {neg : Bool} {t : List Nat} (h : t.head? ≠ some 45) :
    sgnLen (sign neg ++ t) = (sign neg).length := by
  cases neg
  · cases t with
    | nil => rfl
    | cons c t =>
      simp only [List.head?_cons, ne_eq, Option.some.injEq] at h
      simp [sign, sgnLen, h]
  · rfl

theorem parts_head {ds fr ex : List Nat} (hd : Digits ds) (hf : Frac fr) (he : Exp ex) :
    (ds ++ (fr ++ ex)).head? ≠ some 45 := by
  cases ds with
  | nil =>
    rcases hf with rfl | ⟨es, rfl, -⟩
    · rcases he with rfl | ⟨e, sg, es, rfl, he, -⟩
      · simp
      · rcases he with rfl | rfl <;> simp
    · simp
  | cons d ds =>
    have := hd d List.mem_cons_self
    simp
    omega

theorem strtod_parts {neg : Bool} {ds fr ex : List Nat} (hd : Digits ds) (hf : Frac fr)
    (he : Exp ex) :
    strtod (sign neg ++ (ds ++ (fr ++ ex))) =
      if ds.length = 0 ∧ fr.length ≤ 1 then none
      else if fr.length = 0 ∧ ex.length = 0 then
        some (.num (if neg then -(value ds : Int) else value ds), (sign neg ++ ds).length)
      else some (.real (sign neg ++ (ds ++ (fr ++ ex))), (sign neg ++ (ds ++ (fr ++ ex))).length) := by
  have e1 : sgnLen (sign neg ++ (ds ++ (fr ++ ex))) = (sign neg).length :=
    sgnLen_eq (parts_head hd hf he)
  have e2 : (sign neg ++ (ds ++ (fr ++ ex))).drop (sign neg).length = ds ++ (fr ++ ex) :=
    List.drop_left
  have e3 : (ds ++ (fr ++ ex)).takeWhile isDigit = ds :=
    takeWhile_stop (digits_all hd) (frac_head hf he)
  have e4 : (ds ++ (fr ++ ex)).drop ds.length = fr ++ ex := List.drop_left
  have e5 : (fr ++ ex).drop fr.length = ex := List.drop_left
  rw [strtod_eq]
  simp only [e1, e2, e3, e4, fracLen_eq hf he, e5, expLen_eq he, valueOf_eq]
  split
  · rfl
  · split
    · cases neg <;> simp [sign, Nat.add_comm]
    · have e6 : (sign neg).length + ds.length + fr.length + ex.length =
          (sign neg ++ (ds ++ (fr ++ ex))).length := by simp [Nat.add_assoc]
      rw [e6, List.take_length]

/-- A number is read as itself, if no byte of a number follows. -/
theorem parseNumber_complete {b : Bool} {v : Item} {t r : List Nat} (h : Spec.Num b v t)
    (hr : r.head?.all (fun c => !numChar c) = true) : parseNumber (t ++ r) = some (v, r) := by
  have e := takeWhile_stop (num_chars h) hr
  unfold parseNumber
  rw [e]
  cases h with
  | int neg ds hd hn hs =>
    have := strtod_parts (neg := neg) hd (fr := []) (ex := []) (.inl rfl) (.inl rfl)
    have h0 : ds.length ≠ 0 := by
      intro h0; exact hn (List.length_eq_zero_iff.1 h0)
    simp only [List.append_nil] at this
    rw [this, if_neg (by omega)]
    simp only [List.length_nil, and_self, if_true, Option.map_some]
    rw [List.drop_left]
  | real neg ds fr ex hd hf he hne hn hs =>
    have := strtod_parts (neg := neg) hd hf he
    simp only [List.append_assoc] at this ⊢
    have h0 : ¬ (ds.length = 0 ∧ fr.length ≤ 1) := by
      rintro ⟨a, b⟩
      rcases hn with h | h
      · exact h (List.length_eq_zero_iff.1 a)
      · omega
    have h1 : ¬ (fr.length = 0 ∧ ex.length = 0) := by
      rintro ⟨a, b⟩
      rcases hne with h | h
      · exact h (List.length_eq_zero_iff.1 a)
      · exact h (List.length_eq_zero_iff.1 b)
    rw [this, if_neg h0, if_neg h1, Option.map_some]
    have e7 : (sign neg ++ (ds ++ (fr ++ (ex ++ r)))) = (sign neg ++ (ds ++ (fr ++ ex))) ++ r := by
      simp
    rw [e7, List.drop_left]

/-! ## Nothing else is a number -/

theorem takeWhile_digits (t : List Nat) : Digits (t.takeWhile isDigit) := by
  intro d hd
  have : isDigit d = true := by
    induction t with
    | nil => cases hd
    | cons c t ih =>
      rw [List.takeWhile_cons] at hd
      split at hd
      · rcases List.mem_cons.1 hd with rfl | hd
        · assumption
        · exact ih hd
      · cases hd
  exact (isDigit_iff d).1 this

theorem take_takeWhile (p : Nat → Bool) (t : List Nat) :
    t.take (t.takeWhile p).length = t.takeWhile p := by
  have := List.takeWhile_append_dropWhile (p := p) (l := t)
  conv => lhs; arg 2; rw [← this]
  exact List.take_left

theorem takeWhile_le (p : Nat → Bool) (t : List Nat) : (t.takeWhile p).length ≤ t.length := by
  have := congrArg List.length (List.takeWhile_append_dropWhile (p := p) (l := t))
  simp only [List.length_append] at this
  omega

theorem fracLen_frac (t : List Nat) : Frac (t.take (fracLen t)) ∧ fracLen t ≤ t.length := by
  unfold fracLen
  cases t with
  | nil => exact ⟨.inl rfl, Nat.le_refl _⟩
  | cons c r =>
    simp only
    split
    · next h =>
      subst h
      have := takeWhile_le isDigit r
      refine ⟨.inr ⟨r.takeWhile isDigit, ?_, takeWhile_digits r⟩, by simp only [List.length_cons]; omega⟩
      rw [Nat.add_comm, List.take_succ_cons, take_takeWhile]
    · exact ⟨.inl rfl, Nat.zero_le _⟩

theorem expLen_exp (t : List Nat) : Exp (t.take (expLen t)) ∧ expLen t ≤ t.length := by
  unfold expLen
  cases t with
  | nil => exact ⟨.inl rfl, Nat.le_refl _⟩
  | cons e r =>
    simp only
    split
    · exact ⟨.inl rfl, Nat.zero_le _⟩
    · next he =>
      cases r with
      | nil => exact ⟨.inl rfl, Nat.zero_le _⟩
      | cons s r' =>
        simp only
        split
        · next hs =>
          split
          · exact ⟨.inl rfl, Nat.zero_le _⟩
          · next h0 =>
            have := takeWhile_le isDigit r'
            refine ⟨.inr ⟨e, [s], r'.takeWhile isDigit, ?_, by omega, ?_, takeWhile_digits r', ?_⟩,
              by simp only [List.length_cons]; omega⟩
            · rw [Nat.add_comm, List.take_succ_cons, List.take_succ_cons, take_takeWhile]; rfl
            · rcases hs with rfl | rfl <;> simp
            · intro hn; rw [hn] at h0; exact h0 rfl
        · have hle := takeWhile_le isDigit (s :: r')
          by_cases h0 : ((s :: r').takeWhile isDigit).length = 0
          · rw [if_pos h0, h0]; exact ⟨.inl rfl, Nat.zero_le _⟩
          · rw [if_neg h0]
            refine ⟨.inr ⟨e, [], (s :: r').takeWhile isDigit, ?_, by omega, .inl rfl,
              takeWhile_digits _, ?_⟩, ?_⟩
            · rw [Nat.sub_zero, Nat.add_comm, List.take_succ_cons, take_takeWhile]; rfl
            · intro hn; rw [hn] at h0; exact h0 rfl
            · simp only [List.length_cons] at hle ⊢; omega

theorem sgn_split (t : List Nat) : ∃ neg, t = sign neg ++ t.drop (sgnLen t) ∧
    sgnLen t = (sign neg).length ∧ (sgnLen t = 1 ↔ neg = true) := by
  cases t with
  | nil => exact ⟨false, rfl, rfl, by simp [sgnLen]⟩
  | cons c r =>
    by_cases h : c = 45
    · subst h; exact ⟨true, rfl, rfl, by simp [sgnLen]⟩
    · exact ⟨false, by simp [sgnLen, h, sign], by simp [sgnLen, h, sign], by simp [sgnLen, h]⟩

theorem strtod_sound {t : List Nat} {v : Item} {k : Nat} (h : strtod t = some (v, k)) :
    Spec.Num false v (t.take k) ∧ k ≤ t.length := by
  obtain ⟨neg, hs1, hs2, hs3⟩ := sgn_split t
  rw [strtod_eq] at h
  generalize hu : t.drop (sgnLen t) = u at *
  have hu2 : u = u.takeWhile isDigit ++ u.drop (u.takeWhile isDigit).length := by
    conv => lhs; rw [← List.take_append_drop (u.takeWhile isDigit).length u]
    rw [take_takeWhile]
  have hds := takeWhile_digits u
  generalize u.takeWhile isDigit = ds at *
  generalize u.drop ds.length = r at *
  obtain ⟨hf, hfl⟩ := fracLen_frac r
  obtain ⟨he, hel⟩ := expLen_exp (r.drop (fracLen r))
  have hr : r = r.take (fracLen r) ++ ((r.drop (fracLen r)).take (expLen (r.drop (fracLen r))) ++
      (r.drop (fracLen r)).drop (expLen (r.drop (fracLen r)))) := by
    rw [List.take_append_drop, List.take_append_drop]
  have hlf : (r.take (fracLen r)).length = fracLen r := by rw [List.length_take]; omega
  have hle : ((r.drop (fracLen r)).take (expLen (r.drop (fracLen r)))).length =
      expLen (r.drop (fracLen r)) := by rw [List.length_take]; omega
  generalize (r.drop (fracLen r)).drop (expLen (r.drop (fracLen r))) = rest at *
  generalize (r.drop (fracLen r)).take (expLen (r.drop (fracLen r))) = ex at *
  generalize r.take (fracLen r) = fr at *
  generalize expLen (r.drop (fracLen r)) = e at *
  generalize fracLen r = f at *
  subst hlf hle
  have ht : t = sign neg ++ (ds ++ (fr ++ (ex ++ rest))) := by rw [hs1, hu2, hr]
  split at h
  · cases h
  · next h0 =>
    split at h
    · next h1 =>
      simp only [Option.some.injEq, Prod.mk.injEq] at h
      obtain ⟨rfl, rfl⟩ := h
      have hk : t.take (sgnLen t + ds.length) = sign neg ++ ds := by
        have : t = (sign neg ++ ds) ++ (fr ++ (ex ++ rest)) := by rw [ht]; simp
        rw [hs2]
        have hl : (sign neg).length + ds.length = (sign neg ++ ds).length := by simp
        rw [hl]
        conv => lhs; rw [this]
        exact List.take_left
      rw [hk, valueOf_eq]
      refine ⟨?_, by rw [hs2, ht]; simp⟩
      have e : (if sgnLen t = 1 then -(value ds : Int) else (value ds : Int)) =
          if neg then -(value ds : Int) else (value ds : Int) := by
        cases neg
        · simp at hs3; simp [hs3]
        · simp at hs3; simp [hs3]
      rw [e]
      refine .int neg ds hds ?_ (by simp)
      rintro rfl
      exact h0 ⟨rfl, by omega⟩
    · next h1 =>
      simp only [Option.some.injEq, Prod.mk.injEq] at h
      obtain ⟨rfl, rfl⟩ := h
      have hk : t.take (sgnLen t + ds.length + fr.length + ex.length) =
          sign neg ++ ds ++ fr ++ ex := by
        have : t = (sign neg ++ ds ++ fr ++ ex) ++ rest := by rw [ht]; simp
        rw [hs2]
        have hl : (sign neg).length + ds.length + fr.length + ex.length =
          (sign neg ++ ds ++ fr ++ ex).length := by simp [Nat.add_assoc]
        rw [hl]
        conv => lhs; rw [this]
        exact List.take_left
      rw [hk]
      refine ⟨.real neg ds fr ex hds hf he ?_ ?_ (by simp), by rw [hs2, ht]; simp; omega⟩
      · cases fr with
        | nil => cases ex with
          | nil => exact absurd ⟨rfl, rfl⟩ h1
          | cons => right; simp
        | cons => left; simp
      · cases ds with
        | nil => right; simp at h0; omega
        | cons => left; simp

theorem parseNumber_sound {t r : List Nat} {v : Item} (h : parseNumber t = some (v, r)) :
    ∃ p, t = p ++ r ∧ Spec.Num false v p := by
  unfold parseNumber at h
  simp only [Option.map_eq_some_iff, Prod.exists, Prod.mk.injEq] at h
  obtain ⟨v', k, h1, rfl, rfl⟩ := h
  obtain ⟨h2, h3⟩ := strtod_sound h1
  refine ⟨(t.takeWhile numChar).take k, ?_, h2⟩
  have : (t.takeWhile numChar).take k = t.take k := by
    rw [← take_takeWhile, List.take_take]
    congr 1
    omega
  rw [this, List.take_append_drop]

/-! ## Printing -/

theorem decimal_spec (n : Nat) : Digits (decimal n) ∧ decimal n ≠ [] ∧ value (decimal n) = n ∧
    ((decimal n).head? = some 48 → decimal n = [48]) := by
  induction n using Nat.strongRecOn with
  | ind n ih =>
    rw [decimal]
    split
    · refine ⟨?_, by simp, by simp [value], ?_⟩
      · intro d hd; simp at hd; omega
      · intro h; simp at h; simp [h]
    · next hn =>
      obtain ⟨h1, h2, h3, h4⟩ := ih (n / 10) (by omega)
      refine ⟨?_, by simp, ?_, ?_⟩
      · intro d hd
        rcases List.mem_append.1 hd with hd | hd
        · exact h1 d hd
        · simp at hd; omega
      · have go : ∀ (a : List Nat) (d : Nat), value (a ++ [d]) = 10 * value a + (d - 48) := by
          intro a d
          induction a with
          | nil => simp [value]
          | cons x a ih =>
            rw [List.cons_append, value, value, ih]
            simp only [List.length_append, List.length_cons, List.length_nil, Nat.pow_succ]
            rw [Nat.mul_add, ← Nat.mul_assoc, Nat.mul_comm _ 10, Nat.add_assoc]
        rw [go, h3]; omega
      · intro h
        have hne : (decimal (n / 10)).head? = some 48 := by
          cases hd : decimal (n / 10) with
          | nil => exact absurd hd h2
          | cons x l => rw [hd] at h; simpa using h
        have := h4 hne
        rw [this] at h3
        simp [value] at h3
        omega

theorem printInt_num (i : Int) : Spec.Num true (.num i) (printInt i) := by
  cases i with
  | ofNat n =>
    obtain ⟨h1, h2, h3, h4⟩ := decimal_spec n
    have := Spec.Num.int (strict := true) false (decimal n) h1 h2 (fun _ => h4)
    rw [h3] at this
    exact this
  | negSucc n =>
    obtain ⟨h1, h2, h3, h4⟩ := decimal_spec (n + 1)
    have := Spec.Num.int (strict := true) true (decimal (n + 1)) h1 h2 (fun _ => h4)
    rw [h3] at this
    exact this

end Verif.CJson
