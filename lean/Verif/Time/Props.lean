import Verif.Time.Model

/-! # C66: sleeping; C67: changing the seed of the hash -/

namespace Verif.Time
open Verif

/-- C66: sleeps of up to 4294967 milliseconds (71 minutes) last as long as asked for. -/
theorem sleep_partial (ms : Nat) (h : ms ≤ 4294967) : sleepMs ms = ms * 1000 := by unfold sleepMs; omega

/-- C66: exactly those. -/
theorem sleep_iff (ms : Nat) : sleepMs ms = ms * 1000 ↔ ms ≤ 4294967 := by unfold sleepMs; omega

/-- C66 fails: every longer sleep is shorter than asked for, and shorter than 71.6 minutes. -/
theorem sleep_long_violated (ms : Nat) (h : 4294968 ≤ ms) : sleepMs ms < ms * 1000 ∧ sleepMs ms < 2 ^ 32 := by
  unfold sleepMs; omega

/-- C66 fails: a sleep can return at once, as for `0x20000000` milliseconds (149 hours). -/
theorem sleep_none_violated : sleepMs 536870912 = 0 := by decide

/-- C66: seconds become milliseconds below 2^64 milliseconds. -/
theorem fromSecs_partial (s : Nat) (h : s * 1000 < 2 ^ 64) : fromSecs s = s * 1000 := Nat.mod_eq_of_lt h

/-- C66 fails: a duration of more seconds is another, shorter one. -/
theorem fromSecs_violated (s : Nat) (h : 2 ^ 64 ≤ s * 1000) : fromSecs s < s * 1000 :=
  Nat.lt_of_lt_of_le (Nat.mod_lt _ (by decide)) h

/-- C66: `sleep_ms` of the threads sleeps exactly for up to 2147483 milliseconds (35 minutes). -/
theorem threadSleep_partial (ms : Int) (h0 : 0 ≤ ms) (h : ms ≤ 2147483) : threadSleepMs ms = some (ms * 1000).toNat := by
  unfold threadSleepMs
  rw [if_pos (by omega)]
  congr 2
  omega

/-- C66 fails: the product of more milliseconds overflows an `int`. -/
theorem threadSleep_overflow_violated (ms : Int) (h : 2147484 ≤ ms) : threadSleepMs ms = none := by
  unfold threadSleepMs
  rw [if_neg (by omega)]

/-- C66 fails: a negative number sleeps for at least 35 minutes. -/
theorem threadSleep_negative_violated (ms : Int) (h0 : ms < 0) (h : -2147483 ≤ ms) :
    ∃ n, threadSleepMs ms = some n ∧ 2147483648 ≤ n := by
  unfold threadSleepMs
  rw [if_pos (by omega)]
  have h1 : ms * 1000 % 2 ^ 32 = ms * 1000 + 2 ^ 32 := by
    rw [← Int.add_emod_right, Int.emod_eq_of_lt (by omega) (by omega)]
  exact ⟨_, rfl, by rw [h1]; omega⟩

/-! ## the seed -/

theorem step_mod (n : Nat) (hn : n ≤ 64) {a c : Nat} (h : a % 2 ^ n = c % 2 ^ n) (b : UInt8) :
    (a ^^^ b.toNat) * 1099511628211 % 2 ^ 64 % 2 ^ n = (c ^^^ b.toNat) * 1099511628211 % 2 ^ 64 % 2 ^ n := by
  rw [Nat.mod_mod_of_dvd _ (Nat.pow_dvd_pow 2 hn), Nat.mod_mod_of_dvd _ (Nat.pow_dvd_pow 2 hn), Nat.mul_mod,
    Nat.xor_mod_two_pow, h, ← Nat.xor_mod_two_pow, ← Nat.mul_mod]

/-- the low bits of the hash depend on the low bits of the seed only -/
theorem hash_mod (n : Nat) (hn : n ≤ 64) : ∀ (k : List UInt8) {a c : Nat}, a % 2 ^ n = c % 2 ^ n →
    hashStr a k % 2 ^ n = hashStr c k % 2 ^ n
  | [], _, _, h => h
  | b :: k, _, _, h => hash_mod n hn k (step_mod n hn h b)

theorem xor_mod8 (x y : Nat) : (x ^^^ y) % 8 = (x % 8) ^^^ (y % 8) := Nat.xor_mod_two_pow (n := 3)

theorem xor_inj8 : ∀ x y z : Fin 8, x.val ^^^ z.val = y.val ^^^ z.val → x.val = y.val := by decide

theorem mul_inj8 {x y : Nat} (h : x * 1099511628211 % 2 ^ 64 % 8 = y * 1099511628211 % 2 ^ 64 % 8) : x % 8 = y % 8 := by
  have hd : (8 : Nat) ∣ 2 ^ 64 := ⟨2 ^ 61, by decide⟩
  rw [Nat.mod_mod_of_dvd _ hd, Nat.mod_mod_of_dvd _ hd, Nat.mul_mod, Nat.mul_mod y] at h
  have h3 : 1099511628211 % 8 = 3 := by decide
  rw [h3] at h
  omega

theorem step_ne {a c : Nat} (h : a % 8 ≠ c % 8) (b : UInt8) :
    (a ^^^ b.toNat) * 1099511628211 % 2 ^ 64 % 8 ≠ (c ^^^ b.toNat) * 1099511628211 % 2 ^ 64 % 8 := by
  intro he
  have h2 := mul_inj8 he
  rw [xor_mod8, xor_mod8] at h2
  exact h (xor_inj8 ⟨a % 8, Nat.mod_lt _ (by decide)⟩ ⟨c % 8, Nat.mod_lt _ (by decide)⟩ ⟨b.toNat % 8, Nat.mod_lt _ (by decide)⟩ h2)

/-- and on all of the three lowest -/
theorem hash_ne : ∀ (k : List UInt8) {a c : Nat}, a % 8 ≠ c % 8 → hashStr a k % 8 ≠ hashStr c k % 8
  | [], _, _, h => h
  | b :: k, _, _, h => hash_ne k (step_ne h b)

theorem randomize_ne (s r : Nat) (h : r % 8 ≠ 0) : s % 8 ≠ randomize s r % 8 := by
  have inj : ∀ x y : Fin 8, x.val = x.val ^^^ y.val → y.val = 0 := by decide
  unfold randomize
  rw [xor_mod8]
  intro he
  exact h (inj ⟨s % 8, Nat.mod_lt _ (by decide)⟩ ⟨r % 8, Nat.mod_lt _ (by decide)⟩ he)

/-- C67: a map that is empty, or large enough that the change of the seed does not touch the bits used,
answers as before. -/
theorem reseed_partial {V : Type} (t : HashMap.Tab (List UInt8) V) (s r n f : Nat) (hn : n ≤ 64) (hc : t.cap = 0 ∨ t.cap = 2 ^ n)
    (hr : r % 2 ^ n = 0) (k : List UInt8) :
    HashMap.get (hashStr (randomize s r)) f t k = HashMap.get (hashStr s) f t k := by
  unfold HashMap.get
  rcases hc with hc | hc
  · rw [if_pos hc, if_pos hc]
  · have : hashStr (randomize s r) k % t.cap = hashStr s k % t.cap := by
      rw [hc]
      apply hash_mod n hn k
      unfold randomize
      rw [Nat.xor_mod_two_pow, hr, Nat.xor_zero]
    simp only [this]

/-- a map of 8 slots after a change of the bits above the third -/
example (s : Nat) (k : List UInt8) (t : HashMap.Tab (List UInt8) Nat) (h : t.cap = 8) (f : Nat) :
    HashMap.get (hashStr (randomize s 16)) f t k = HashMap.get (hashStr s) f t k :=
  reseed_partial t s 16 3 f (by decide) (.inr h) (by decide) k

theorem put_first {V : Type} (hash : List UInt8 → Nat) (k : List UInt8) (v : V) (f : Nat) :
    HashMap.put hash (f + 2) (HashMap.new : HashMap.Tab (List UInt8) V) k v =
      .ok ⟨(List.replicate 8 HashMap.Slot.zero).set (hash k % 8) ⟨true, false, some (k, 0), some v⟩, 1, 8, 1, []⟩ := by
  have hlt : hash k % 8 < 8 := Nat.mod_lt _ (by decide)
  have hg : (List.replicate 8 (HashMap.Slot.zero : HashMap.Slot (List UInt8) V))[hash k % 8]? = some HashMap.Slot.zero := by
    rw [List.getElem?_replicate, if_pos hlt]
  have hp : HashMap.putLoop (⟨List.replicate 8 HashMap.Slot.zero, 0, 8, 0, []⟩ : HashMap.Tab (List UInt8) V) k (f + 1)
      (hash k % 8) = .ok (hash k % 8) := by
    rw [HashMap.putLoop]
    simp only [hg]
    rfl
  have hr : HashMap.resize (HashMap.put hash (f + 1)) (HashMap.new : HashMap.Tab (List UInt8) V)
        (if (HashMap.new : HashMap.Tab (List UInt8) V).cap * 2 < 8 then 8 else (HashMap.new : HashMap.Tab (List UInt8) V).cap * 2) =
      .ok ⟨List.replicate 8 HashMap.Slot.zero, 0, 8, 0, []⟩ := rfl
  rw [HashMap.put, if_pos (show 4 * (HashMap.new : HashMap.Tab (List UInt8) V).len ≥ 3 * (HashMap.new : HashMap.Tab (List UInt8) V).cap from Nat.le_refl 0), hr, Run.ok_bind]
  simp only
  rw [hp, Run.ok_bind, HashMap.putAt]
  simp only [hg]
  rfl

/-- C67 fails: after a change of the seed that touches one of its three lowest bits, every map with one
entry no longer finds it. -/
theorem reseed_violated {V : Type} (s r : Nat) (hr : r % 8 ≠ 0) (k : List UInt8) (v : V) (f g : Nat) :
    ∃ t, HashMap.put (hashStr s) (f + 2) HashMap.new k v = .ok t ∧
      HashMap.get (hashStr s) (g + 1) t k = .ok (some v) ∧
      HashMap.get (hashStr (randomize s r)) (g + 1) t k = .ok none := by
  refine ⟨_, put_first (hashStr s) k v f, ?_, ?_⟩
  · have hlt : hashStr s k % 8 < 8 := Nat.mod_lt _ (by decide)
    unfold HashMap.get
    rw [if_neg (by simp)]
    simp only
    rw [HashMap.getLoop]
    simp only [List.getElem?_set, List.length_replicate, hlt, if_true, Bool.not_true, Bool.false_eq_true, if_false,
      HashMap.slotHit, HashMap.keyEq, Bool.not_false, List.not_mem_nil, decide_true, Run.ok_bind]
  · have hlt : hashStr (randomize s r) k % 8 < 8 := Nat.mod_lt _ (by decide)
    have hne : hashStr s k % 8 ≠ hashStr (randomize s r) k % 8 := hash_ne k (randomize_ne s r hr)
    unfold HashMap.get
    rw [if_neg (by simp)]
    simp only
    rw [HashMap.getLoop]
    simp only [List.getElem?_set, if_neg hne, List.getElem?_replicate, hlt, if_true, HashMap.Slot.zero, Bool.not_false]

end Verif.Time
