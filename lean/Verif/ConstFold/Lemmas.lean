import Verif.ConstFold.Model

/-! # Lemmas about bits, division and the symbol table -/

namespace Verif.ConstFold

open Spec

theorem bit_nat (n i : Nat) : bit (n : Int) i = n.testBit i := by
  unfold bit
  rw [Nat.testBit_eq_decide_div_mod_eq]
  have h1 : ((n : Int) / 2 ^ i % 2) = ((n / 2 ^ i % 2 : Nat) : Int) := by
    push_cast; rfl
  rw [h1]
  by_cases h : n / 2 ^ i % 2 = 1
  · simp [h]
  · have : ¬ ((n / 2 ^ i % 2 : Nat) : Int) = 1 := by omega
    rw [beq_eq_false_iff_ne.mpr this]; simp [h]

/-- Adding a multiple of `2^(i+1)` does not change bit `i`. -/
theorem bit_add_mul (v k : Int) (i : Nat) : bit (v + k * 2 ^ (i + 1)) i = bit v i := by
  unfold bit
  have h : v + k * 2 ^ (i + 1) = v + (2 * k) * 2 ^ i := by rw [Int.pow_succ]; grind
  rw [h, Int.add_mul_ediv_right _ _ (by exact Int.ne_of_gt (Int.pow_pos (by decide)))]
  have : (v / 2 ^ i + 2 * k) % 2 = v / 2 ^ i % 2 := by omega
  rw [this]

theorem toInt_bit (x : BitVec 64) (i : Nat) :
    bit x.toInt i = if i < 64 then x.getLsbD i else x.msb := by
  have hlt := x.isLt
  rw [BitVec.toInt_eq_msb_cond]
  split
  · rename_i hm
    split
    · rename_i hi
      have : ((x.toNat : Int) - ((2 ^ 64 : Nat) : Int)) =
          (x.toNat : Int) + (-(2 ^ (63 - i))) * 2 ^ (i + 1) := by
        have : (2 : Int) ^ 64 = 2 ^ (63 - i) * 2 ^ (i + 1) := by
          rw [← Int.pow_add]; congr 1; omega
        rw [Int.neg_mul, ← this]; rfl
      rw [this, bit_add_mul, bit_nat]; rfl
    · rename_i hi
      rw [hm]
      unfold bit
      have hp : (2 : Int) ^ 64 ≤ 2 ^ i := by
        have := Nat.pow_le_pow_right (n := 2) (by decide) (show 64 ≤ i by omega)
        exact_mod_cast this
      have hb : x.toNat ≥ 2 ^ 63 := by
        rw [BitVec.msb_eq_decide] at hm; simpa using hm
      have : ((x.toNat : Int) - ((2 ^ 64 : Nat) : Int)) / 2 ^ i = -1 := by
        have h1 : ((x.toNat : Int) - ((2 ^ 64 : Nat) : Int)) =
            ((x.toNat : Int) - ((2 ^ 64 : Nat) : Int) + 2 ^ i) + (-1) * 2 ^ i := by grind
        rw [h1, Int.add_mul_ediv_right _ _ (by exact Int.ne_of_gt (Int.pow_pos (by decide)))]
        rw [Int.ediv_eq_zero_of_lt]
        · rfl
        · rw [show ((2 ^ 64 : Nat) : Int) = 2 ^ 64 from rfl]; generalize (2:Int)^i = P at *; omega
        · rw [show ((2 ^ 64 : Nat) : Int) = 2 ^ 64 from rfl]; generalize (2:Int)^i = P at *; omega
      rw [this]; rfl
  · rename_i hm
    rw [bit_nat]
    split
    · rfl
    · rename_i hi
      rw [Bool.not_eq_true] at hm
      rw [hm]
      exact Nat.testBit_lt_two_pow (Nat.lt_of_lt_of_le hlt
        (Nat.pow_le_pow_right (by decide) (by omega)))

theorem ofInt_toInt (v : Int) (h : InR v) : (BitVec.ofInt 64 v).toInt = v := by
  rw [BitVec.toInt_ofInt]
  unfold InR half at h
  rw [Int.bmod_def]; split <;> omega

theorem toInt_inR (x : BitVec 64) : InR x.toInt := by
  have := x.toInt_lt; have := x.le_toInt
  unfold InR half; omega

theorem bits_spec (f : BitVec 64 → BitVec 64 → BitVec 64) (g : Bool → Bool → Bool)
    (hf : ∀ x y i, i < 64 → (f x y).getLsbD i = g (x.getLsbD i) (y.getLsbD i))
    (a b : Int) (ha : InR a) (hb : InR b) (i : Nat) :
    bit (bits f a b) i = g (bit a i) (bit b i) := by
  unfold bits
  conv => rhs; rw [← ofInt_toInt a ha, ← ofInt_toInt b hb]
  simp only [toInt_bit]
  split
  · rename_i hi; exact hf _ _ _ hi
  · simp only [BitVec.msb_eq_getLsbD_last]
    exact hf _ _ _ (by omega)

theorem not_spec (a : Int) (ha : InR a) (i : Nat) :
    bit (~~~ (BitVec.ofInt 64 a)).toInt i = !bit a i := by
  conv => rhs; rw [← ofInt_toInt a ha]
  simp only [toInt_bit]
  split
  · rename_i hi; simp [hi]
  · simp

/-- An integer is determined by its bits. -/
theorem bit_ext (a b : Int) (h : ∀ i, bit a i = bit b i) : a = b := by
  have hmod : ∀ i : Nat, a % 2 ^ i = b % 2 ^ i := by
    intro i
    induction i with
    | zero => simp [Int.emod_one]
    | succ i ih =>
      have split2 : ∀ v : Int, v % 2 ^ (i + 1) = v % 2 ^ i + 2 ^ i * (v / 2 ^ i % 2) := by
        intro v
        have hp : (0 : Int) < 2 ^ i := Int.pow_pos (by decide)
        rw [Int.pow_succ]
        generalize (2 : Int) ^ i = p at hp ⊢
        have h1 := Int.mul_ediv_add_emod v p
        have h2 := Int.emod_nonneg v (Int.ne_of_gt hp)
        have h3 := Int.emod_lt_of_pos v hp
        have h4 := Int.mul_ediv_add_emod (v / p) 2
        have h5 : v = (v % p + p * (v / p % 2)) + (p * 2) * (v / p / 2) := by
          conv => lhs; rw [← h1, ← h4]
          grind
        conv => lhs; rw [h5]
        rw [Int.add_mul_emod_self_left]
        rcases Int.emod_two_eq (v / p) with h6 | h6 <;> rw [h6]
        · rw [Int.emod_eq_of_lt] <;> omega
        · rw [Int.emod_eq_of_lt] <;> omega
      have hb := h i
      unfold bit at hb
      rw [split2 a, split2 b, ih]
      have h1 : a / 2 ^ i % 2 = 0 ∨ a / 2 ^ i % 2 = 1 := by omega
      have h2 : b / 2 ^ i % 2 = 0 ∨ b / 2 ^ i % 2 = 1 := by omega
      rcases h1 with h1 | h1 <;> rcases h2 with h2 | h2 <;> simp [h1, h2] at hb ⊢
  have hk := hmod (a.natAbs + b.natAbs + 1)
  have hbig : a.natAbs + b.natAbs + 1 < 2 ^ (a.natAbs + b.natAbs + 1) := Nat.lt_two_pow_self
  have hbig' : ((a.natAbs + b.natAbs + 1 : Nat) : Int) < (2 : Int) ^ (a.natAbs + b.natAbs + 1) := by
    exact_mod_cast hbig
  have : (2 : Int) ^ (a.natAbs + b.natAbs + 1) ∣ a - b :=
    Int.dvd_of_emod_eq_zero (Int.emod_eq_emod_iff_emod_sub_eq_zero.mp hk)
  have h1 := Int.natAbs_dvd_natAbs.mpr this
  rw [Int.natAbs_pow] at h1
  have h0 := Nat.eq_zero_of_dvd_of_lt h1 (by
    show (a - b).natAbs < 2 ^ _
    generalize 2 ^ (a.natAbs + b.natAbs + 1) = P at hbig
    omega)
  omega

/-- The two conditions on the remainder single out C's truncating division. -/
theorem tdiv_unique {x y q r : Int} (hy : y ≠ 0) (h : x = q * y + r)
    (hr : r.natAbs < y.natAbs) (hs : 0 ≤ r * x) : q = x.tdiv y ∧ r = x.tmod y := by
  have h1 := Int.mul_tdiv_add_tmod x y
  have h2 : (x.tmod y).natAbs < y.natAbs := by
    rw [Int.natAbs_tmod]; exact Nat.mod_lt _ (by omega)
  have key : q = x.tdiv y := by
    have hd : (q - x.tdiv y) * y = x.tmod y - r := by grind
    have hlt : (x.tmod y - r).natAbs < y.natAbs := by
      rcases Int.lt_trichotomy x 0 with hx | hx | hx
      · have : r ≤ 0 := by
          refine Classical.byContradiction fun hc => ?_
          have := Int.mul_neg_of_pos_of_neg (show 0 < r by omega) hx
          omega
        have : x.tmod y ≤ 0 := by
          have := Int.tmod_nonneg (a := -x) y (by omega)
          rw [Int.neg_tmod] at this; omega
        omega
      · subst hx
        simp only [Int.zero_tmod]; omega
      · have : 0 ≤ r := by
          refine Classical.byContradiction fun hc => ?_
          have := Int.mul_neg_of_neg_of_pos (show r < 0 by omega) hx
          omega
        have := Int.tmod_nonneg (a := x) y (by omega)
        omega
    have hdv : y ∣ x.tmod y - r := ⟨q - x.tdiv y, by rw [← hd]; grind⟩
    have h0 := Nat.eq_zero_of_dvd_of_lt (Int.natAbs_dvd_natAbs.mpr hdv) hlt
    have hz : x.tmod y - r = 0 := by omega
    rw [hz] at hd
    rcases Int.mul_eq_zero.mp hd with hd | hd
    · omega
    · exact absurd hd hy
  refine ⟨key, ?_⟩
  subst key; grind

theorem tdiv_spec (x y : Int) (hy : y ≠ 0) :
    x = x.tdiv y * y + x.tmod y ∧ (x.tmod y).natAbs < y.natAbs ∧ 0 ≤ x.tmod y * x := by
  refine ⟨by have := Int.mul_tdiv_add_tmod x y; grind, ?_, ?_⟩
  · rw [Int.natAbs_tmod]; exact Nat.mod_lt _ (by omega)
  · rcases Int.lt_or_le x 0 with hx | hx
    · have : x.tmod y ≤ 0 := by
        have := Int.tmod_nonneg (a := -x) y (by omega)
        rw [Int.neg_tmod] at this; omega
      exact Int.mul_nonneg_of_nonpos_of_nonpos this (by omega)
    · exact Int.mul_nonneg (Int.tmod_nonneg _ hx) hx

theorem shr_unique {x q : Int} {k : Nat} (h1 : q * 2 ^ k ≤ x) (h2 : x < (q + 1) * 2 ^ k) :
    q = x >>> k := by
  rw [Int.shiftRight_eq_div_pow]
  have hp : (0 : Int) < ((2 ^ k : Nat) : Int) := by
    have := Nat.pow_pos (n := k) (show 0 < 2 by decide); exact_mod_cast this
  have e : (2 : Int) ^ k = ((2 ^ k : Nat) : Int) := by push_cast; rfl
  rw [e] at h1 h2
  generalize ((2 ^ k : Nat) : Int) = p at *
  apply Int.le_antisymm
  · exact (Int.le_ediv_iff_mul_le hp).mpr h1
  · have := Int.ediv_lt_of_lt_mul hp h2
    omega

theorem shr_spec (x : Int) (k : Nat) :
    (x >>> k) * 2 ^ k ≤ x ∧ x < (x >>> k + 1) * 2 ^ k := by
  rw [Int.shiftRight_eq_div_pow]
  have hp : (0 : Int) < ((2 ^ k : Nat) : Int) := by
    have := Nat.pow_pos (n := k) (show 0 < 2 by decide); exact_mod_cast this
  have e : (2 : Int) ^ k = ((2 ^ k : Nat) : Int) := by push_cast; rfl
  rw [e]
  generalize ((2 ^ k : Nat) : Int) = p at *
  exact ⟨Int.ediv_mul_le _ (Int.ne_of_gt hp), Int.lt_ediv_add_one_mul_self _ hp⟩

theorem BinVal.det {op : String} {x y z w : Int} (h : BinVal op x y z) (g : BinVal op x y w) :
    z = w := by
  rcases h with ⟨ho, h⟩ | ⟨ho, h⟩ | ⟨ho, h⟩ | ⟨ho, h⟩ | ⟨ho, h⟩ | ⟨ho, h⟩ | ⟨ho, h⟩ | ⟨ho, h⟩ |
      ⟨ho, h⟩ | ⟨ho, h⟩ <;> subst ho <;>
    simp only [BinVal, String.reduceEq, false_and, true_and, or_false, false_or] at g
  · rw [h, g]
  · rw [h, g]
  · rw [h, g]
  · obtain ⟨hy, r, h1, h2, h3⟩ := h
    obtain ⟨_, r', g1, g2, g3⟩ := g
    rw [(tdiv_unique hy h1 h2 h3).1, (tdiv_unique hy g1 g2 g3).1]
  · obtain ⟨hy, r, h1, h2, h3⟩ := h
    obtain ⟨_, r', g1, g2, g3⟩ := g
    rw [(tdiv_unique hy h1 h2 h3).2, (tdiv_unique hy g1 g2 g3).2]
  · obtain ⟨k, h1, h2⟩ := h
    obtain ⟨k', g1, g2⟩ := g
    have : k = k' := by omega
    subst this; rw [h2, g2]
  · obtain ⟨k, h1, h2, h3⟩ := h
    obtain ⟨k', g1, g2, g3⟩ := g
    have : k = k' := by omega
    subst this; rw [shr_unique h2 h3, shr_unique g2 g3]
  · exact bit_ext _ _ fun i => by rw [h, g]
  · exact bit_ext _ _ fun i => by rw [h, g]
  · exact bit_ext _ _ fun i => by rw [h, g]

theorem UnVal.det {op : String} {x z w : Int} (h : UnVal op x z) (g : UnVal op x w) :
    z = w := by
  rcases h with ⟨ho, h⟩ | ⟨ho, h⟩ | ⟨ho, h⟩ <;> subst ho <;>
    simp only [UnVal, String.reduceEq, false_and, true_and, or_false, false_or] at g
  · rw [h, g]
  · rw [h, g]
  · exact bit_ext _ _ fun i => by rw [h, g]

/-- An expression has at most one value. -/
theorem Value.det {ρ : String → Option Int} {e : Ex} {v : Int} (h : Spec.Value ρ e v) :
    ∀ {w}, Spec.Value ρ e w → v = w := by
  induction h with
  | lit n => intro w h; cases h; rfl
  | var hx => intro w h; cases h with | var hy => rw [hx] at hy; injection hy
  | bin _ _ h i1 i2 =>
    intro w g
    cases g with
    | bin a b g => have e1 := i1 a; have e2 := i2 b; subst e1 e2; exact BinVal.det h g
  | un _ h i1 =>
    intro w g
    cases g with
    | un a g => have e1 := i1 a; subst e1; exact UnVal.det h g

theorem andThen_some {x : Res (Option Int)} {f : Int → Res (Option Int)} {v : Int}
    (h : andThen x f = .ok (some v)) : ∃ l, x = .ok (some l) ∧ f l = .ok (some v) := by
  unfold andThen at h
  split at h
  · exact ⟨_, rfl, h⟩
  all_goals simp at h

theorem chk_some {v w : Int} (h : chk v = .ok (some w)) : w = v ∧ InR v := by
  unfold chk at h
  split at h
  · simp only [Res.ok.injEq, Option.some.injEq] at h; exact ⟨h.symm, by assumption⟩
  · simp at h

theorem binop_some {op : String} {l r v : Int} (hl : InR l) (hr : InR r)
    (h : binop op l r = .ok (some v)) : BinVal op l r v ∧ InR v := by
  unfold binop at h
  split at h
  · obtain ⟨rfl, hv⟩ := chk_some h; exact ⟨Or.inl ⟨by assumption, rfl⟩, hv⟩
  split at h
  · obtain ⟨rfl, hv⟩ := chk_some h; exact ⟨Or.inr (Or.inl ⟨by assumption, rfl⟩), hv⟩
  split at h
  · obtain ⟨rfl, hv⟩ := chk_some h; exact ⟨Or.inr (Or.inr (Or.inl ⟨by assumption, rfl⟩)), hv⟩
  split at h
  · split at h
    · simp at h
    · rename_i hr0
      obtain ⟨rfl, hv⟩ := chk_some h
      have ⟨a, b, c⟩ := tdiv_spec l r hr0
      exact ⟨Or.inr (Or.inr (Or.inr (Or.inl ⟨by assumption, hr0, _, a, b, c⟩))), hv⟩
  split at h
  · split at h
    · simp at h
    · rename_i hr0
      unfold modLL at h
      split at h
      · simp only [Res.ok.injEq, Option.some.injEq] at h
        subst h
        have ⟨a, b, c⟩ := tdiv_spec l r hr0
        refine ⟨Or.inr (Or.inr (Or.inr (Or.inr (Or.inl ⟨by assumption, hr0, _, a, b, c⟩)))), ?_⟩
        unfold InR half at *; omega
      · simp at h
  split at h
  · unfold shlLL at h
    split at h
    · obtain ⟨rfl, hv⟩ := chk_some h
      rename_i hb
      exact ⟨Or.inr (Or.inr (Or.inr (Or.inr (Or.inr (Or.inl ⟨by assumption, r.toNat, by omega,
        rfl⟩))))), hv⟩
    · simp at h
  split at h
  · unfold shrLL at h
    split at h
    · simp only [Res.ok.injEq, Option.some.injEq] at h
      subst h
      rename_i hb
      have ⟨a, b⟩ := shr_spec l r.toNat
      refine ⟨Or.inr (Or.inr (Or.inr (Or.inr (Or.inr (Or.inr (Or.inl ⟨by assumption, r.toNat,
        by omega, a, b⟩)))))), ?_⟩
      have hp : (1 : Int) ≤ 2 ^ r.toNat := Int.pow_pos (by decide)
      generalize l >>> r.toNat = q at *
      generalize (2 : Int) ^ r.toNat = p at *
      unfold InR at *
      have hh : 0 < half := by decide
      constructor
      · refine Classical.byContradiction fun hc => ?_
        have h2 : (q + 1) ≤ -half := by omega
        have h3 : (q + 1) * p ≤ (-half) * 1 := by
          have := Int.mul_le_mul_of_nonneg_right h2 (show 0 ≤ p by omega)
          have := Int.mul_le_mul_of_nonpos_left (show -half ≤ 0 by omega) hp
          omega
        omega
      · refine Classical.byContradiction fun hc => ?_
        have h2 : half ≤ q := by omega
        have h3 : q * 1 ≤ q * p := Int.mul_le_mul_of_nonneg_left hp (by omega)
        omega
    · simp at h
  split at h
  · simp only [Res.ok.injEq, Option.some.injEq] at h
    subst h
    refine ⟨Or.inr (Or.inr (Or.inr (Or.inr (Or.inr (Or.inr (Or.inr (Or.inl ⟨by assumption,
      fun i => ?_⟩))))))), toInt_inR _⟩
    exact bits_spec (· &&& ·) (· && ·) (fun x y i _ => by simp) l r hl hr i
  split at h
  · simp only [Res.ok.injEq, Option.some.injEq] at h
    subst h
    refine ⟨Or.inr (Or.inr (Or.inr (Or.inr (Or.inr (Or.inr (Or.inr (Or.inr (Or.inl ⟨by assumption,
      fun i => ?_⟩)))))))), toInt_inR _⟩
    exact bits_spec (· ||| ·) (· || ·) (fun x y i _ => by simp) l r hl hr i
  split at h
  · simp only [Res.ok.injEq, Option.some.injEq] at h
    subst h
    refine ⟨Or.inr (Or.inr (Or.inr (Or.inr (Or.inr (Or.inr (Or.inr (Or.inr (Or.inr ⟨by assumption,
      fun i => ?_⟩)))))))), toInt_inR _⟩
    exact bits_spec (· ^^^ ·) (· ^^ ·) (fun x y i _ => by simp) l r hl hr i
  · simp at h

theorem unop_some {op : String} {l v : Int} (hl : InR l)
    (h : unop op l = .ok (some v)) : UnVal op l v ∧ InR v := by
  unfold unop at h
  split at h
  · obtain ⟨rfl, hv⟩ := chk_some h; exact ⟨Or.inl ⟨by assumption, rfl⟩, hv⟩
  split at h
  · simp only [Res.ok.injEq, Option.some.injEq] at h
    subst h
    exact ⟨Or.inr (Or.inl ⟨by assumption, rfl⟩), hl⟩
  split at h
  · simp only [Res.ok.injEq, Option.some.injEq] at h
    subst h
    exact ⟨Or.inr (Or.inr ⟨by assumption, not_spec l hl⟩), toInt_inR _⟩
  · simp at h

theorem toLL_of_lt {n : Nat} (h : (n : Int) < 2 ^ 63) : toLL n = n := by
  unfold toLL; rw [Int.bmod_def]; split <;> omega

theorem toInt32_of {v : Int} (h : I32 v) : toInt32 v = v := by
  unfold toInt32; unfold I32 at h; rw [Int.bmod_def]; split <;> omega

end Verif.ConstFold
