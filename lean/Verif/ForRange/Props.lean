import Verif.ForRange.Model

/-!
# Claims about range loops (C27)
-/

namespace Verif.ForRange

open Spec

theorem two_pow_split (n : Nat) (h : 1 ≤ n) : (2 : Int) ^ n = 2 * 2 ^ (n - 1) := by
  obtain ⟨m, rfl⟩ : ∃ m, n = m + 1 := ⟨n - 1, by omega⟩
  rw [Int.pow_succ, Nat.add_sub_cancel]
  omega

theorem two_pow_pos (n : Nat) : 0 < (2 : Int) ^ n := Int.pow_pos (by omega)

theorem wrap_id (t : CTy) (x : Int) (hb : 1 ≤ t.bits) (h : t.has x = true) : t.wrap x = x := by
  rw [CTy.has, Bool.and_eq_true, decide_eq_true_eq, decide_eq_true_eq, CTy.lo, CTy.hi] at h
  rw [CTy.wrap]
  have h1 := two_pow_split t.bits hb
  have h2 := two_pow_pos (t.bits - 1)
  revert h
  cases hs : t.signed
  · simp only [Bool.false_eq_true, if_false]
    intro h
    exact Int.emod_eq_of_lt (by omega) (by omega)
  · simp only [if_true]
    intro h
    rw [Int.emod_eq_of_lt (by omega) (by omega)]
    omega

theorem has_between (t : CTy) (x y z : Int) (hx : t.has x = true) (hz : t.has z = true)
    (h : (x ≤ y ∧ y ≤ z) ∨ (z ≤ y ∧ y ≤ x)) : t.has y = true := by
  simp only [CTy.has, Bool.and_eq_true, decide_eq_true_eq] at *
  omega

theorem test_exact (ti te : CTy) (incl : Bool) (st : Step) (i e : Int)
    (hb : 1 ≤ (common ti te).bits) (hi : (common ti te).has i = true)
    (he : (common ti te).has e = true) (hm : st.minus = decide (st.value < 0)) :
    test ti te incl st i e = true ↔ inside incl st.value e i := by
  simp only [test, wrap_id _ _ hb hi, wrap_id _ _ hb he, hm, inside, decide_eq_true_eq]
  by_cases hk : st.value < 0 <;> cases incl <;> simp [hk]

theorem advance_exact (ti : CTy) (st : Step) (i : Int) (hb : 1 ≤ ti.bits)
    (h : ti.has (i + st.value) = true) : advance ti st i = some (i + st.value) := by
  simp only [advance]
  split
  · rfl
  · rw [wrap_id _ _ hb h]

/-- The loop over a list of documented values. -/
theorem loop_visits {S : Type} (ti te : CTy) (incl : Bool) (st : Step) (end_ : S → Int)
    (body : Int → S → S) (Inv : S → Prop) (b : Int)
    (hbi : 1 ≤ ti.bits) (hbc : 1 ≤ (common ti te).bits)
    (hm : st.minus = decide (st.value < 0))
    (hb : (common ti te).has b = true)
    (hinv : ∀ s, Inv s → end_ s = b) (hbody : ∀ x s, Inv s → Inv (body x s))
    (xs : List Int) (a : Int) (s : S) (hs : Inv s)
    (hv : Visits incl a b st.value xs)
    (ha1 : ti.has a = true) (ha2 : (common ti te).has a = true)
    (hf1 : ti.has (a + xs.length * st.value) = true)
    (hf2 : (common ti te).has (a + xs.length * st.value) = true) :
    loop ti te incl st end_ body (xs.length + 1) a s = .done (runAll body xs s) := by
  induction xs generalizing a s with
  | nil =>
    obtain ⟨_, _, h3⟩ := hv
    simp only [List.length_nil, Int.natCast_zero, Int.zero_mul, Int.add_zero] at h3
    have : ¬ test ti te incl st a (end_ s) = true := by
      rw [hinv s hs, test_exact ti te incl st a b hbc ha2 hb hm]
      exact h3
    simp [loop, this, runAll]
  | cons x xs ih =>
    obtain ⟨h1, h2, h3⟩ := hv
    have hx : x = a := by
      have := h1 0 (by simp)
      simpa using this
    subst hx
    have hin := h2 x List.mem_cons_self
    have ht : test ti te incl st x (end_ s) = true := by
      rw [hinv s hs, test_exact ti te incl st x b hbc ha2 hb hm]
      exact hin
    have hlen : x + (xs.length + 1 : Nat) * st.value
        = (x + st.value) + (xs.length : Int) * st.value := by
      rw [Int.natCast_add, Int.add_mul]
      simp only [Int.natCast_one, Int.one_mul]
      omega
    rw [List.length_cons, hlen] at hf1 hf2 h3
    have hbt : (x ≤ x + st.value ∧ x + st.value ≤ (x + st.value) + (xs.length : Int) * st.value) ∨
        ((x + st.value) + (xs.length : Int) * st.value ≤ x + st.value ∧ x + st.value ≤ x) := by
      have hn : (0 : Int) ≤ xs.length := Int.natCast_nonneg _
      by_cases hk : st.value < 0
      · right
        have := Int.mul_nonneg hn (show 0 ≤ -st.value by omega)
        rw [Int.mul_neg] at this
        omega
      · left
        have := Int.mul_nonneg hn (show 0 ≤ st.value by omega)
        omega
    have hn1 := has_between ti _ _ _ ha1 hf1 hbt
    have hn2 := has_between (common ti te) _ _ _ ha2 hf2 hbt
    rw [List.length_cons, loop, if_pos ht, advance_exact ti st x hbi hn1]
    simp only
    rw [ih (x + st.value) (body x s) (hbody x s hs) ⟨?_, ?_, h3⟩ hn1 hn2 hf1 hf2]
    · rfl
    · intro j hj
      have := h1 (j + 1) (by simpa using hj)
      simp only [List.getElem_cons_succ] at this
      rw [this, Int.natCast_add, Int.add_mul]
      simp only [Int.natCast_one, Int.one_mul]
      omega
    · intro y hy
      exact h2 y (List.mem_cons_of_mem _ hy)

theorem least (P : Nat → Prop) (n : Nat) (h : P n) : ∃ m, P m ∧ ∀ k, k < m → ¬ P k := by
  induction n using Nat.strongRecOn with
  | _ n ih =>
    by_cases hk : ∃ k, k < n ∧ P k
    · obtain ⟨k, h1, h2⟩ := hk
      exact ih k h1 h2
    · exact ⟨n, h, fun k h1 h2 => hk ⟨k, h1, h2⟩⟩

/-- There is exactly one list of documented values for a step other than 0. -/
theorem visits_exists (incl : Bool) (a b k : Int) (hk : k ≠ 0) : ∃ xs, Visits incl a b k xs := by
  have hout : ∃ n : Nat, ¬ inside incl k b (a + n * k) := by
    refine ⟨(b - a).natAbs + 1, ?_⟩
    have e : ((b - a).natAbs : Int) = (b - a).natAbs := rfl
    have h1 : b - a ≤ ((b - a).natAbs : Int) := by omega
    have h2 : -(b - a) ≤ ((b - a).natAbs : Int) := by omega
    generalize (b - a).natAbs = n at *
    rw [inside]
    have hc : ((n + 1 : Nat) : Int) = n + 1 := by simp
    rw [hc]
    by_cases hneg : k < 0
    · have : ((n : Int) + 1) * k ≤ ((n : Int) + 1) * (-1) :=
        Int.mul_le_mul_of_nonneg_left (by omega) (by omega)
      rw [if_pos hneg]
      cases incl
      · simp only [Bool.false_eq_true, if_false]; omega
      · simp only [if_true]; omega
    · have : ((n : Int) + 1) * 1 ≤ ((n : Int) + 1) * k :=
        Int.mul_le_mul_of_nonneg_left (by omega) (by omega)
      rw [if_neg hneg]
      cases incl
      · simp only [Bool.false_eq_true, if_false]; omega
      · simp only [if_true]; omega
  obtain ⟨n, hn⟩ := hout
  obtain ⟨m, hm1, hm2⟩ := least (fun n : Nat => ¬ inside incl k b (a + n * k)) n hn
  refine ⟨(List.range m).map fun j : Nat => a + j * k, ?_, ?_, ?_⟩
  · intro j hj
    simp
  · intro x hx
    obtain ⟨j, hj, rfl⟩ := List.mem_map.1 hx
    rw [List.mem_range] at hj
    exact Classical.byContradiction fun hc => hm2 j hj hc
  · simpa using hm1

theorem visits_unique (incl : Bool) (a b k : Int) (xs ys : List Int)
    (hx : Visits incl a b k xs) (hy : Visits incl a b k ys) : xs = ys := by
  have key : ∀ us vs : List Int, Visits incl a b k us → Visits incl a b k vs →
      ¬ us.length < vs.length := by
    intro us vs hu hv h
    have h1 := hv.1 us.length h
    have h2 := hv.2.1 _ (List.getElem_mem h)
    rw [h1] at h2
    exact hu.2.2 h2
  have hl : xs.length = ys.length := by
    have := key xs ys hx hy
    have := key ys xs hy hx
    omega
  apply List.ext_getElem hl
  intro j h1 h2
  rw [hx.1 j h1, hy.1 j h2]

/-- **C27** (partial).  A range loop whose step is a number other than 0 (or missing), whose end
is not changed by the body, and whose values up to and including the first one past the range
are values of the type of the variable and of the type the comparison is made in, ends, and
runs the body exactly on the documented values in order. -/
theorem for_range_exact_partial {S : Type} (ti te : CTy) (incl : Bool) (st : Step)
    (end_ : S → Int) (body : Int → S → S) (Inv : S → Prop) (a b : Int) (s : S)
    (hbi : 1 ≤ ti.bits) (hbc : 1 ≤ (common ti te).bits)
    (hk : st.value ≠ 0) (hm : st.minus = decide (st.value < 0))
    (hinv : ∀ s, Inv s → end_ s = b) (hbody : ∀ x s, Inv s → Inv (body x s)) (hs : Inv s)
    (hfit : ∀ n : Nat, (∀ j : Nat, j < n → inside incl st.value b (a + j * st.value)) →
      ti.has (a + n * st.value) = true ∧ (common ti te).has (a + n * st.value) = true)
    (hb : (common ti te).has b = true) :
    ∃ xs, Visits incl a b st.value xs ∧
      ∃ fuel, loop ti te incl st end_ body fuel a s = .done (runAll body xs s) := by
  obtain ⟨xs, hv⟩ := visits_exists incl a b st.value hk
  refine ⟨xs, hv, xs.length + 1, ?_⟩
  have h0 := hfit 0 (fun j h => absurd h (by omega))
  simp only [Int.natCast_zero, Int.zero_mul, Int.add_zero] at h0
  have hn := hfit xs.length (fun j h => by
    have := hv.2.1 _ (List.getElem_mem h)
    rwa [hv.1 j h] at this)
  exact loop_visits ti te incl st end_ body Inv b hbi hbc hm hb hinv hbody xs a s hs hv h0.1 h0.2
    hn.1 hn.2

/-- The common case: an `int` loop with step 1 over an exclusive range needs nothing but that
the bounds are `int`s: it visits `a, a+1, …, b-1`. -/
theorem for_int_exact {S : Type} (body : Int → S → S) (a b : Int) (s : S)
    (ha : -2147483648 ≤ a ∧ a ≤ 2147483647) (hb : -2147483648 ≤ b ∧ b ≤ 2147483647) :
    ∃ xs, Visits false a b 1 xs ∧
      ∃ fuel, loop cInt cInt false .none (fun _ => b) body fuel a s = .done (runAll body xs s) := by
  replace ha : cInt.has a = true := by simp [CTy.has, CTy.lo, CTy.hi, cInt]; omega
  replace hb : cInt.has b = true := by simp [CTy.has, CTy.lo, CTy.hi, cInt]; omega
  refine for_range_exact_partial cInt cInt false .none (fun _ => b) body (fun _ => True) a b s
    (by decide) (by decide) (by decide) (by decide) (fun _ _ => rfl) (fun _ _ _ => trivial) trivial
    ?_ hb
  intro n hn
  have hcc : common cInt cInt = cInt := by decide
  rw [hcc]
  simp only [Step.value, Int.mul_one] at *
  have : cInt.has (a + n) = true := by
    cases n with
    | zero => simpa using ha
    | succ n =>
      have h1 := hn n (by omega)
      simp [inside] at h1
      refine has_between cInt a (a + (n + 1 : Nat)) b ha hb (Or.inl ⟨by omega, by omega⟩)
  exact ⟨this, this⟩

/-- `for i in 10..=0 step -3` meets the hypotheses of the general theorem, and visits
10, 7, 4, 1. -/
example :
    loop (S := List Int) cInt cInt true (.num true 3) (fun _ => 0) (fun i s => s ++ [i]) 5 10 []
      = .done [10, 7, 4, 1] ∧ Step.minus (.num true 3) = decide (Step.value (.num true 3) < 0) ∧
      cInt.has 10 = true ∧ cInt.has (-2) = true := by
  decide +kernel

example (n : Nat) (h : ∀ j : Nat, j < n → inside true (-3) 0 (10 + j * (-3))) : n ≤ 4 := by
  apply Classical.byContradiction
  intro hc
  have := h 4 (by omega)
  simp [inside] at this

/-! ## Where the full statement fails -/

/-- An inclusive loop up to the largest `int` runs into signed overflow. -/
theorem for_inclusive_max_violated {S : Type} (body : Int → S → S) (s : S) :
    loop cInt cInt true .none (fun _ => 2147483647) body 1 2147483647 s = .ub := by
  have h1 : test cInt cInt true .none 2147483647 2147483647 = true := by decide +kernel
  have h2 : advance cInt .none 2147483647 = none := by decide +kernel
  simp [loop, h1, h2]

/-- An inclusive loop over all bytes never ends. -/
theorem for_byte_violated {S : Type} (body : Int → S → S) (fuel : Nat) (i : Int) (s : S)
    (hi : 0 ≤ i ∧ i ≤ 255) : loop cByte cByte true .none (fun _ => 255) body fuel i s = .more := by
  induction fuel generalizing i s with
  | zero => rfl
  | succ fuel ih =>
    have hc : common cByte cByte = cInt := by decide
    have h1 : test cByte cByte true .none i 255 = true := by
      rw [test_exact _ _ _ _ _ _ (by rw [hc]; decide) (by
        rw [hc]
        simp [CTy.has, CTy.lo, CTy.hi, cInt]
        omega) (by rw [hc]; decide) (by decide)]
      simp [inside, Step.value]
      omega
    have h2 : advance cByte .none i = some ((i + 1) % 256) := by
      simp [advance, cByte, Step.value, CTy.wrap]
    rw [loop, if_pos h1, h2]
    exact ih _ _ ⟨by omega, by omega⟩

/-- A descending inclusive loop over an unsigned variable down to 0 never ends. -/
theorem for_unsigned_down_violated {S : Type} (body : Int → S → S) (fuel : Nat) (i : Int) (s : S)
    (hi : 0 ≤ i ∧ i < 4294967296) :
    loop cUInt cUInt true (.num true 1) (fun _ => 0) body fuel i s = .more := by
  induction fuel generalizing i s with
  | zero => rfl
  | succ fuel ih =>
    have hc : common cUInt cUInt = cUInt := by decide
    have h1 : test cUInt cUInt true (.num true 1) i 0 = true := by
      rw [test_exact _ _ _ _ _ _ (by rw [hc]; decide) (by
        rw [hc]
        simp [CTy.has, CTy.lo, CTy.hi, cUInt]
        omega) (by rw [hc]; decide) (by decide)]
      simp [inside, Step.value]
      omega
    have h2 : advance cUInt (.num true 1) i = some ((i + -1) % 4294967296) := by
      simp [advance, cUInt, Step.value, CTy.wrap]
    rw [loop, if_pos h1, h2]
    exact ih _ _ ⟨by omega, by omega⟩

/-- A negative start with an unsigned end (such as a length) makes the loop run not at all:
`for i in -1..n` with `n = 3`. -/
theorem for_mixed_sign_violated {S : Type} (body : Int → S → S) (s : S) :
    loop cInt cSize false .none (fun _ => 3) body 1 (-1) s = .done s ∧
      ¬ Visits false (-1) 3 1 [] := by
  constructor
  · have h : test cInt cSize false .none (-1) 3 = false := by decide +kernel
    simp [loop, h]
  · rintro ⟨_, _, h⟩
    simp [inside] at h

/-- The same with an unsigned end as wide as the variable: `for i in -1..n` over an `int` with
an `unsigned int` `n = 3` runs not at all. -/
theorem for_mixed_width_violated {S : Type} (body : Int → S → S) (s : S) :
    loop cInt cUInt false .none (fun _ => 3) body 1 (-1) s = .done s ∧
      ¬ Visits false (-1) 3 1 [] := by
  constructor
  · have h : test cInt cUInt false .none (-1) 3 = false := by decide +kernel
    simp [loop, h]
  · rintro ⟨_, _, h⟩
    simp [inside] at h

/-- A step given by a variable with a negative value does not descend: `for i in 5..0 step k`
with `k = -1` runs not at all. -/
theorem for_variable_step_violated {S : Type} (body : Int → S → S) (s : S) :
    loop cInt cInt false (.var (-1)) (fun _ => 0) body 1 5 s = .done s ∧
      ¬ Visits false 5 0 (-1) [] := by
  constructor
  · have h : test cInt cInt false (.var (-1)) 5 0 = false := by decide +kernel
    simp [loop, h]
  · rintro ⟨_, _, h⟩
    simp [inside] at h

/-- The end is evaluated in every round: `for i in 0..n { n = n + 1; }` is still running after
any number of rounds the type allows. -/
theorem for_end_reevaluated_violated (fuel : Nat) (i n : Int) (hi : 0 ≤ i) (hn : i < n)
    (hb : n + fuel ≤ 2147483647) :
    loop (S := Int) cInt cInt false .none (fun n => n) (fun _ n => n + 1) fuel i n = .more := by
  induction fuel generalizing i n with
  | zero => rfl
  | succ fuel ih =>
    have hc : common cInt cInt = cInt := by decide
    have h1 : test cInt cInt false .none i n = true := by
      rw [test_exact _ _ _ _ _ _ (by rw [hc]; decide) (by
        rw [hc]
        simp [CTy.has, CTy.lo, CTy.hi, cInt]
        omega) (by
        rw [hc]
        simp [CTy.has, CTy.lo, CTy.hi, cInt]
        omega) (by decide)]
      simp [inside, Step.value]
      omega
    have h2 : advance cInt .none i = some (i + 1) := by
      apply advance_exact _ _ _ (by decide)
      simp [CTy.has, CTy.lo, CTy.hi, cInt, Step.value]
      omega
    rw [loop, if_pos h1, h2]
    exact ih _ _ (by omega) (by omega) (by omega)

end Verif.ForRange
