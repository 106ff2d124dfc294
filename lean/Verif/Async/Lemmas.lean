import Verif.Async.Model

namespace Verif.Async
open Spec

/-! ## Names -/

/-- Begins with a capital letter. -/
def cap (s : String) : Bool := match s.toList with | c :: _ => 'A' ≤ c && c ≤ 'Z' | [] => false

theorem cap_ne {s l : String} (hs : cap s = true) (hl : cap l = false) : s ≠ l := by
  intro e; rw [e, hl] at hs; cases hs

theorem cap_not_mem {s : String} (hs : cap s = true) (ls : List String)
    (hl : ls.all (fun l => !cap l) = true) : ls.contains s = false := by
  rw [Bool.eq_false_iff]
  intro h
  have hm : s ∈ ls := by simpa using h
  have := List.all_eq_true.mp hl s hm
  simp [hs] at this

theorem cap_not_starts {p s : String} (hs : cap s = true) (hp : cap p = false) (hn : p.toList ≠ []) :
    starts p s = false := by
  unfold starts
  unfold cap at hs hp
  cases hpl : p.toList with
  | nil => exact absurd hpl hn
  | cons a as =>
    cases hsl : s.toList with
    | nil => rw [hsl] at hs; cases hs
    | cons c cs =>
      rw [hsl] at hs; rw [hpl] at hp
      simp only [List.isPrefixOf_cons_cons]
      have : (a == c) = false := by
        rw [Bool.eq_false_iff]
        intro e
        have e' : a = c := by simpa using e
        rw [e'] at hp
        simp only at hs hp
        rw [hs] at hp; cases hp
      simp [this]

theorem cap_isStruct {s : String} (hs : cap s = true) : isStruct s = true := by
  unfold isStruct
  rw [cap_not_mem hs _ (by decide)]
  have : (["uint", "int", "i8", "u8", "i16", "u16", "i32", "u32", "i64", "u64", "f32", "f64", "i128",
      "u128"].any (starts · s)) = false := by
    rw [List.any_eq_false]
    intro p hp
    have h1 : cap p = false ∧ p.toList ≠ [] := by
      have h2 : (["uint", "int", "i8", "u8", "i16", "u16", "i32", "u32", "i64", "u64", "f32", "f64",
          "i128", "u128"].all fun p => !cap p && !p.toList.isEmpty) = true := by decide
      have h3 := List.all_eq_true.mp h2 p hp
      simpa using h3
    simp [cap_not_starts hs h1.1 h1.2]
  rw [this]; rfl

/-! ## Handing over -/

/-- What `await` does with the result of a function of type `t`: it takes it out of the block, or
makes it from the word, or drops it. -/
def Handed (L : Nat) (op : Operand) (t : Ty) (v : Val) : Prop :=
  (boxes t = true ∧ takeOf (cname (awaitTy op t)) = .box) ∨
  (boxes t = false ∧ zname t = "void" ∧ takeOf (cname (awaitTy op t)) = .nothing ∧ v = .unit) ∨
  (boxes t = false ∧ zname t ≠ "void" ∧ takeOf (cname (awaitTy op t)) = .long ∧
    fromLong (awaitTy op t) (toLong L v) = v)

theorem wrap_s {n : Nat} {i : Int} (h1 : -(2 ^ n : Nat) ≤ 2 * i) (h2 : 2 * i < (2 ^ n : Nat)) :
    wrap true n i = i := by
  unfold wrap
  simp only [if_true]
  exact Int.bmod_eq_of_le_mul_two (by omega) (by omega)

theorem wrap_u {n : Nat} {i : Int} (h1 : 0 ≤ i) (h2 : i < (2 ^ n : Nat)) : wrap false n i = i := by
  unfold wrap
  simp only [Bool.false_eq_true, if_false]
  exact Int.emod_eq_of_lt h1 h2

theorem wrap_u_s {n L : Nat} {i : Int} (hn : n ≤ L) (h1 : 0 ≤ i) (h2 : i < (2 ^ n : Nat)) :
    wrap false n (wrap true L i) = i := by
  unfold wrap
  simp only [if_true, Bool.false_eq_true, if_false]
  have hd : ((2 ^ n : Nat) : Int) ∣ ((2 ^ L : Nat) : Int) :=
    Int.natCast_dvd_natCast.mpr (Nat.pow_dvd_pow 2 hn)
  rw [← Int.emod_emod_of_dvd (Int.bmod i (2 ^ L)) hd, Int.bmod_emod, Int.emod_emod_of_dvd i hd]
  exact Int.emod_eq_of_lt h1 h2

theorem int_long {L : Nat} {t : Ty} {s : Bool} {n : Nat} {i : Int} (ht : intTy t = some (s, n))
    (hb : t ≠ .bool) (h1 : wrap s n (wrap true L i) = i) :
    fromLong t (toLong L (.int i)) = .int i := by
  cases t <;> simp_all [fromLong, toLong, intTy]

/-- In the range of a type. -/
def inRange (s : Bool) (n : Nat) (i : Int) : Prop :=
  if s then -(2 ^ n : Nat) ≤ 2 * i ∧ 2 * i < (2 ^ n : Nat) else 0 ≤ i ∧ i < (2 ^ n : Nat)

theorem int_case {L : Nat} {t : Ty} {s : Bool} {n : Nat} {i : Int} (ht : intTy t = some (s, n))
    (hb : t ≠ .bool) (hn : n ≤ L) (hr : inRange s n i) :
    fromLong t (toLong L (.int i)) = .int i := by
  refine int_long ht hb ?_
  unfold inRange at hr
  cases s
  · simp only [Bool.false_eq_true, if_false] at hr
    exact wrap_u_s hn hr.1 hr.2
  · simp only [if_true] at hr
    have hp : 2 ^ n ≤ 2 ^ L := Nat.pow_le_pow_right (by decide) hn
    rw [wrap_s (n := L) (by omega) (by omega)]
    exact wrap_s hr.1 hr.2

theorem handed {L : Nat} (hL : L = 32 ∨ L = 64) {op : Operand} {t : Ty} {v : Val}
    (hc : carried L op t = true) (hv : HasTy t v) : Handed L op t v := by
  cases t
  case named s =>
    left
    simp only [carried, Bool.and_eq_true, bne_iff_ne, ne_eq, Bool.not_eq_true'] at hc
    obtain ⟨⟨⟨h1, h2⟩, h3⟩, h4⟩ := hc
    have hs : cap s = true := h4
    have hst := cap_isStruct hs
    have hb : boxes (.named s) = true := by
      simp [boxes, zname, hst, h2, cap_ne hs (show cap "void" = false by decide)]
    refine ⟨hb, ?_⟩
    have ht : takeOf s = .box := by
      have hn : '*' ∉ s.toList := by
        intro hm
        rw [show (s.toList.contains '*') = true from by simpa using hm] at h3
        cases h3
      simp [takeOf, hn, hst, h2, cap_ne hs (show cap "void" = false by decide),
        cap_ne hs (show cap "string" = false by decide)]
    cases op
    case other => exact absurd rfl h1
    case call => exact ht
    case var =>
      have hp : primitive s = false := cap_not_mem hs _ (by decide)
      simp only [awaitTy, zname, varTy, hp, Bool.false_eq_true, if_false, cname]
      exact ht
  case void =>
    right; left
    cases op
    case other => simp [carried] at hc
    all_goals exact ⟨by decide, by decide, by decide, hv⟩
  case i128 =>
    left
    cases op
    case other => simp [carried] at hc
    all_goals exact ⟨by decide, by decide⟩
  case u128 =>
    left
    cases op
    case other => simp [carried] at hc
    all_goals exact ⟨by decide, by decide⟩
  case uint =>
    left
    cases op
    case other => simp [carried] at hc
    all_goals exact ⟨by decide, by decide⟩
  case bool =>
    right; right
    cases op
    case other => simp [carried] at hc
    all_goals
      refine ⟨by decide, by decide, by decide, ?_⟩
      rcases hL with rfl | rfl <;> rcases hv with rfl | rfl <;> decide
  all_goals first
    | (exfalso; simp [carried] at hc; done)
    | (right; right
       obtain ⟨i, rfl, h1, h2⟩ := hv
       cases op
       case other => simp [carried] at hc
       all_goals first
         | (exfalso; simp [carried] at hc; done)
         | (refine ⟨by decide, by decide, by decide, ?_⟩
            first
              | (refine int_case (s := true) (n := 8) rfl (by decide) (by omega) ?_
                 simp only [inRange, if_true, Nat.reducePow]; omega)
              | (refine int_case (s := false) (n := 8) rfl (by decide) (by omega) ?_
                 simp only [inRange, Bool.false_eq_true, if_false, Nat.reducePow]; omega)
              | (refine int_case (s := true) (n := 16) rfl (by decide) (by omega) ?_
                 simp only [inRange, if_true, Nat.reducePow]; omega)
              | (refine int_case (s := false) (n := 16) rfl (by decide) (by omega) ?_
                 simp only [inRange, Bool.false_eq_true, if_false, Nat.reducePow]; omega)
              | (refine int_case (s := true) (n := 32) rfl (by decide) (by omega) ?_
                 simp only [inRange, if_true, Nat.reducePow]; omega)
              | (refine int_case (s := false) (n := 32) rfl (by decide) (by omega) ?_
                 simp only [inRange, Bool.false_eq_true, if_false, Nat.reducePow]; omega)
              | (have h64 : L = 64 := by simpa [carried] using hc
                 refine int_case (s := true) (n := 64) rfl (by decide) (by omega) ?_
                 simp only [inRange, if_true, Nat.reducePow]; omega)
              | (have h64 : L = 64 := by simpa [carried] using hc
                 refine int_case (s := false) (n := 64) rfl (by decide) (by omega) ?_
                 simp only [inRange, Bool.false_eq_true, if_false, Nat.reducePow]; omega)))

end Verif.Async
