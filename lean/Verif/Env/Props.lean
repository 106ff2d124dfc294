import Verif.Env.Model

/-! # Environment variables: properties (C183) -/

namespace Verif.Env
open Verif Spec

theorem nameOk_iff (n : List Byte) : nameOk n = true ↔ IsName n := by
  simp only [nameOk, IsName, Bool.and_eq_true, Bool.not_eq_true', List.isEmpty_eq_false_iff, ne_eq]
  refine and_congr Iff.rfl ?_
  rw [← Bool.not_eq_true, List.contains_iff_mem]
  exact ⟨fun h c hc e => h (e ▸ hc), fun h hm => h 61 hm rfl⟩

/-! ## One call -/

theorem remove_good {w : World} (h : Good w) (n : List Byte) : Good (remove w n) := by
  unfold remove
  split
  · exact h
  · rename_i i hi
    refine ⟨?_, ?_⟩
    · intro m j hj
      simp only at hj ⊢
      split at hj
      · cases hj
      · rename_i hm
        refine ⟨(h.1 m j hj).1, ?_⟩
        rw [if_neg (fun e : j = i => hm (h.2 m n i (e ▸ hj) hi))]
        exact (h.1 m j hj).2
    · intro m m' j hj hj'
      simp only at hj hj'
      split at hj
      · cases hj
      · split at hj'
        · cases hj'
        · exact h.2 m m' j hj hj'

theorem remove_next (w : World) (n : List Byte) : (remove w n).next = w.next := by
  unfold remove; split <;> rfl

theorem put_good {w : World} (h : Good w) (n v : List Byte) : Good (put w n v) := by
  have hr := remove_good h n
  unfold put
  generalize remove w n = w at hr
  refine ⟨?_, ?_⟩
  · intro m j hj
    simp only at hj ⊢
    split at hj
    · cases hj; exact ⟨by omega, by simp⟩
    · obtain ⟨h1, h2⟩ := hr.1 m j hj
      refine ⟨by omega, ?_⟩
      rw [if_neg (by omega)]; exact h2
  · intro m m' j hj hj'
    simp only at hj hj'
    split at hj <;> split at hj'
    · rename_i a b; rw [a, b]
    · cases hj; have := (hr.1 m' _ hj').1; omega
    · cases hj'; have := (hr.1 m _ hj).1; omega
    · exact hr.2 m m' j hj hj'

theorem remove_value {w : World} (h : Good w) (n m : List Byte) :
    value (remove w n) m = if m = n then none else value w m := by
  unfold value get getenv remove
  split
  · rename_i hn
    split
    · rename_i e; rw [e, hn]; rfl
    · rfl
  · rename_i i hi
    simp only
    split
    · rfl
    · rename_i hm
      cases hv : w.vars m with
      | none => rfl
      | some j =>
          show (if j = i then none else w.mem j) = w.mem j
          rw [if_neg (fun e : j = i => hm (h.2 m n i (e ▸ hv) hi))]

theorem put_value {w : World} (h : Good w) (n v m : List Byte) :
    value (put w n v) m = if m = n then some v else value w m := by
  have hr := remove_good h n
  have hv := remove_value h n m
  unfold put
  generalize remove w n = w' at hr hv
  by_cases hm : m = n
  · simp [value, get, getenv, hm]
  · rw [if_neg hm] at hv ⊢
    rw [← hv]
    simp only [value, get, getenv, if_neg hm]
    cases e : w'.vars m with
    | none => rfl
    | some j =>
        have := (hr.1 m j e).1
        show (if j = w'.next then some v else w'.mem j) = w'.mem j
        rw [if_neg (by omega)]

/-- what is kept in memory by a removal -/
theorem remove_mem {w : World} (n : List Byte) (j : Nat) (h : w.vars n ≠ some j) : (remove w n).mem j = w.mem j := by
  unfold remove
  split
  · rfl
  · rename_i i hi
    show (if j = i then none else w.mem j) = _
    rw [if_neg (fun e : j = i => h (e ▸ hi))]

theorem put_mem {w : World} (n v : List Byte) (j : Nat) (h : w.vars n ≠ some j) (hj : j < w.next) :
    (put w n v).mem j = w.mem j := by
  unfold put
  show (if j = (remove w n).next then some v else (remove w n).mem j) = _
  rw [remove_next, if_neg (by omega), remove_mem n j h]

theorem set_posix {w : World} (n v : List Byte) :
    set false w n v = if IsName n then (put w n v, true) else (w, false) := by
  unfold set zSetenv
  by_cases h : IsName n
  · have := (nameOk_iff n).mpr h; simp [this, h]
  · have : ¬ nameOk n = true := fun hn => h ((nameOk_iff n).mp hn)
    simp [this, h]

theorem unset_posix {w : World} (n : List Byte) :
    unset false w n = if IsName n then (remove w n, true) else (w, false) := by
  unfold unset zUnsetenv
  by_cases h : IsName n
  · have := (nameOk_iff n).mpr h; simp [this, h]
  · have : ¬ nameOk n = true := fun hn => h ((nameOk_iff n).mp hn)
    simp [this, h]

theorem getDup_ok {w : World} (h : Good w) (n : List Byte) :
    ∃ w' r, getDup w n = .ok (w', r) ∧ Good w' ∧ w'.vars = w.vars ∧ w.next ≤ w'.next ∧
      (∀ j, j < w.next → w'.mem j = w.mem j) ∧
      (match value w n with
       | none => r = none
       | some v => ∃ i, r = some i ∧ w.next ≤ i ∧ i < w'.next ∧ w'.mem i = some v ∧ ∀ m, w'.vars m ≠ some i) := by
  unfold getDup value get getenv
  cases e : w.vars n with
  | none => exact ⟨w, none, rfl, h, rfl, Nat.le_refl _, fun _ _ => rfl, rfl⟩
  | some i =>
      obtain ⟨h1, h2⟩ := h.1 n i e
      obtain ⟨v, hv⟩ := Option.isSome_iff_exists.mp h2
      simp only [hv, Option.bind_some]
      refine ⟨_, _, rfl, ⟨?_, h.2⟩, rfl, by simp, ?_, w.next, rfl, Nat.le_refl _, by simp, by simp, ?_⟩
      · intro m j hj
        obtain ⟨a, b⟩ := h.1 m j hj
        refine ⟨by show j < w.next + 1; omega, ?_⟩
        show (if j = w.next then some v else w.mem j).isSome = true
        rw [if_neg (by omega)]; exact b
      · intro j hj
        show (if j = w.next then some v else w.mem j) = _
        rw [if_neg (by omega)]
      · intro m hm
        have := (h.1 m _ hm).1
        omega

/-! ## Any program -/

theorem step_posix {w : World} (h : Good w) (o : Op) :
    ∃ w', step false w o = .ok w' ∧ Good w' ∧ ∀ m, value w' m = stepT (value w) o m := by
  cases o with
  | set n v =>
      refine ⟨_, rfl, ?_⟩
      rw [set_posix]
      by_cases hn : IsName n
      · rw [if_pos hn]
        refine ⟨put_good h n v, fun m => ?_⟩
        rw [put_value h]
        simp [stepT, hn]
      · rw [if_neg hn]
        exact ⟨h, fun m => by simp [stepT, hn]⟩
  | unset n =>
      refine ⟨_, rfl, ?_⟩
      rw [unset_posix]
      by_cases hn : IsName n
      · rw [if_pos hn]
        refine ⟨remove_good h n, fun m => ?_⟩
        rw [remove_value h]
        simp [stepT, hn]
      · rw [if_neg hn]
        exact ⟨h, fun m => by simp [stepT, hn]⟩
  | dup n =>
      obtain ⟨w', r, e, hg, hv, _, hm, _⟩ := getDup_ok h n
      refine ⟨w', by simp [step, e], hg, fun m => ?_⟩
      show value w' m = value w m
      unfold value get getenv
      rw [hv]
      cases e : w.vars m with
      | none => rfl
      | some j => exact hm j (h.1 m j e).1

/-- C183: after any program, a variable has the value it was last set to, is absent if it was unset
after that, and is as at the start otherwise; calls with a name that is empty or has an `=` change
nothing.  No call reads memory that was given up. -/
theorem env_history : ∀ (os : List Op) (w : World), Good w →
    ∃ w', run false w os = .ok w' ∧ Good w' ∧ ∀ m, value w' m = os.foldl stepT (value w) m
  | [], w, h => ⟨w, rfl, h, fun _ => rfl⟩
  | o :: os, w, h => by
      obtain ⟨w1, e1, h1, v1⟩ := step_posix h o
      obtain ⟨w2, e2, h2, v2⟩ := env_history os w1 h1
      refine ⟨w2, by simp [run, e1, e2], h2, fun m => ?_⟩
      rw [v2, List.foldl_cons]
      exact congrArg (fun t => os.foldl stepT t m) (funext v1)

/-- C183: `set` and `unset` report `OK` exactly for names C accepts, and a variable can be read
back at once. -/
theorem set_get (w : World) (h : Good w) (n v : List Byte) :
    ((set false w n v).2 = true ↔ IsName n) ∧ ((unset false w n).2 = true ↔ IsName n) ∧
    (IsName n → value (set false w n v).1 n = some v ∧ get (unset false w n).1 n = none) := by
  rw [set_posix, unset_posix]
  by_cases hn : IsName n
  · rw [if_pos hn, if_pos hn]
    refine ⟨by simp [hn], by simp [hn], fun _ => ⟨?_, ?_⟩⟩
    · rw [put_value h]; simp
    · unfold get getenv remove
      split
      · assumption
      · simp
  · simp [hn]

theorem run_keeps_addr {j : Nat} : ∀ (os : List Op) (w : World), Good w → j < w.next →
    (∀ m, w.vars m ≠ some j) → ∃ w', run false w os = .ok w' ∧ w'.mem j = w.mem j
  | [], w, _, _, _ => ⟨w, rfl, rfl⟩
  | o :: os, w, h, hj, hv => by
      obtain ⟨w1, e1, h1, _⟩ := step_posix h o
      have key : w1.mem j = w.mem j ∧ j < w1.next ∧ ∀ m, w1.vars m ≠ some j := by
        cases o with
        | set n v =>
            cases e1
            rw [set_posix]
            split
            · refine ⟨put_mem n v j (hv n) hj, ?_, ?_⟩
              · show j < (remove w n).next + 1; rw [remove_next]; omega
              · intro m
                show (if m = n then some (remove w n).next else (remove w n).vars m) ≠ some j
                split
                · rw [remove_next]; intro e; cases e; omega
                · unfold remove
                  split
                  · exact hv m
                  · simp only; split
                    · simp
                    · exact hv m
            · exact ⟨rfl, hj, hv⟩
        | unset n =>
            cases e1
            rw [unset_posix]
            split
            · refine ⟨remove_mem n j (hv n), by rw [remove_next]; exact hj, ?_⟩
              intro m
              unfold remove
              split
              · exact hv m
              · simp only; split
                · simp
                · exact hv m
            · exact ⟨rfl, hj, hv⟩
        | dup n =>
            obtain ⟨w', r, e, _, hvars, hn, hm, _⟩ := getDup_ok h n
            simp only [step, e, Res.ok_bind] at e1
            cases e1
            exact ⟨hm j hj, by omega, fun m => hvars ▸ hv m⟩
      obtain ⟨w2, e2, hm2⟩ := run_keeps_addr os w1 h1 key.2.1 key.2.2
      exact ⟨w2, by simp [run, e1, e2], hm2.trans key.1⟩

/-- C183: the text of `get_dup` is the value of the variable at the time of the call, and no later call
of the program changes or frees it. -/
theorem dup_stable (w : World) (h : Good w) (n v : List Byte) (hv : value w n = some v) :
    ∃ w1 i, getDup w n = .ok (w1, some i) ∧ w1.mem i = some v ∧
      ∀ os, ∃ w2, run false w1 os = .ok w2 ∧ w2.mem i = some v := by
  obtain ⟨w1, r, e, hg, _, _, _, hr⟩ := getDup_ok h n
  rw [hv] at hr
  obtain ⟨i, rfl, _, hlt, hm, hno⟩ := hr
  refine ⟨w1, i, e, hm, fun os => ?_⟩
  obtain ⟨w2, e2, hm2⟩ := run_keeps_addr os w1 hg hlt hno
  exact ⟨w2, e2, hm2.trans hm⟩

/-- C183 (partial): the text of `get` stays as long as no call sets or unsets this variable.  Missing:
see `get_dangling_violated`. -/
theorem get_stable_partial (n : List Byte) (i : Nat) : ∀ (os : List Op) (w : World), Good w → get w n = some i →
    (∀ o ∈ os, ¬ Touches n o) → ∃ w', run false w os = .ok w' ∧ get w' n = some i ∧ w'.mem i = w.mem i
  | [], w, _, hi, _ => ⟨w, rfl, hi, rfl⟩
  | o :: os, w, h, hi, ht => by
      obtain ⟨w1, e1, h1, _⟩ := step_posix h o
      have hlt := (h.1 n i hi).1
      have hto := ht o (by simp)
      have other : ∀ m, m ≠ n → w.vars m ≠ some i := fun m hm e => hm (h.2 m n i e hi)
      have rem : ∀ m, m ≠ n → (remove w m).vars n = some i := by
        intro m hm
        unfold remove
        split
        · exact hi
        · show (if n = m then none else w.vars n) = _
          rw [if_neg (Ne.symm hm)]; exact hi
      have key : w1.mem i = w.mem i ∧ get w1 n = some i := by
        cases o with
        | set m v =>
            cases e1
            have hm : m ≠ n := hto
            rw [set_posix]
            split
            · refine ⟨put_mem m v i (other m hm) hlt, ?_⟩
              show (if n = m then some (remove w m).next else (remove w m).vars n) = _
              rw [if_neg (Ne.symm hm), rem m hm]
            · exact ⟨rfl, hi⟩
        | unset m =>
            cases e1
            have hm : m ≠ n := hto
            rw [unset_posix]
            split
            · exact ⟨remove_mem m i (other m hm), rem m hm⟩
            · exact ⟨rfl, hi⟩
        | dup m =>
            obtain ⟨w', r, e, _, hvars, _, hmem, _⟩ := getDup_ok h m
            simp only [step, e, Res.ok_bind] at e1
            cases e1
            exact ⟨hmem i hlt, by unfold get getenv; rw [hvars]; exact hi⟩
      obtain ⟨w2, e2, g2, m2⟩ := get_stable_partial n i os w1 h1 key.2 (fun x hx => ht x (by simp [hx]))
      exact ⟨w2, by simp [run, e1, e2], g2, m2.trans key.1⟩

/-- C183 refuted: after the variable is set again, or unset, the text that `get` has returned before is
given up. -/
theorem get_dangling_violated (w : World) (h : Good w) (n v : List Byte) (hn : IsName n) (i : Nat)
    (hi : get w n = some i) :
    (set false w n v).1.mem i = none ∧ (unset false w n).1.mem i = none := by
  have hlt := (h.1 n i hi).1
  have hr : (remove w n).mem i = none := by
    unfold remove
    rw [show w.vars n = some i from hi]
    simp
  rw [set_posix, unset_posix, if_pos hn, if_pos hn]
  refine ⟨?_, hr⟩
  show (if i = (remove w n).next then some v else (remove w n).mem i) = none
  rw [remove_next, if_neg (by omega), hr]

/-- C183 refuted, Windows: setting a variable to the empty text removes it, and reports `OK`. -/
theorem windows_empty_violated (w : World) (n : List Byte) (hn : IsName n) :
    (set true w n []).2 = true ∧ get (set true w n []).1 n = none := by
  have := (nameOk_iff n).mpr hn
  simp only [set, zSetenv, this]
  refine ⟨by simp, ?_⟩
  simp only [get, getenv]
  show (remove w n).vars n = none
  unfold remove
  split
  · assumption
  · simp

/-- C183 refuted, Windows: `unset` of a text with an `=` in it sets the variable in front of the `=`,
and reports `OK`. -/
theorem windows_unset_violated (w : World) (h : Good w) (n v : List Byte) (hn : IsName n) :
    (unset true w (n ++ 61 :: v)).2 = true ∧ value (unset true w (n ++ 61 :: v)).1 n = some (v ++ [61]) := by
  have ht : ∀ (l : List Byte), (∀ c ∈ l, c ≠ 61) → ∀ r : List Byte,
      (l ++ 61 :: r).takeWhile (fun c => !decide (c = 61)) = l ∧
      (l ++ 61 :: r).dropWhile (fun c => !decide (c = 61)) = 61 :: r := by
    intro l
    induction l with
    | nil => intro _ r; simp
    | cons c l ih =>
        intro hl r
        have := ih (fun x hx => hl x (by simp [hx])) r
        have hc := hl c (by simp)
        simp [List.takeWhile_cons, List.dropWhile_cons, hc, this]
  obtain ⟨h1, h2⟩ := ht n hn.2 (v ++ [61])
  have e : n ++ 61 :: v ++ [61] = n ++ 61 :: (v ++ [61]) := by simp
  have hp : putenvWin w (n ++ 61 :: v ++ [61]) = (put w n (v ++ [61]), 0) := by
    unfold putenvWin
    rw [e, h1, h2]
    have hne : n.isEmpty = false := by
      cases n with
      | nil => exact absurd rfl hn.1
      | cons _ _ => rfl
    simp [hne]
  unfold unset zUnsetenv
  simp only [if_true, hp]
  refine ⟨by simp, ?_⟩
  rw [put_value h, if_pos rfl]

/-- `HOME=x` at the start; the program sets it to `yz` -/
example : ∃ w : World, Good w ∧ value w [72] = some [120] ∧ IsName [72] ∧
    value (set false w [72] [121, 122]).1 [72] = some [121, 122] := by
  refine ⟨⟨fun n => if n = [72] then some 0 else none, fun i => if i = 0 then some [120] else none, 1⟩, ?_, rfl, by decide, ?_⟩
  · constructor
    · intro n i h
      simp only at h
      split at h
      · cases h; exact ⟨by decide, rfl⟩
      · cases h
    · intro n m i h h'
      simp only at h h'
      split at h <;> split at h' <;> simp_all
  · decide +kernel

end Verif.Env
