import Verif.CJson.Str
import Verif.CJson.Num

/-!
# Documents of the JSON library: what is accepted, and printing back
-/

namespace Verif.CJson

open Spec (Val Elems Mems Lex Blank)

theorem skip_blank {w : List Nat} {c : Nat} {r : List Nat} (hw : ∀ x ∈ w, x ≤ 32) (hc : 32 < c) :
    skip (w ++ c :: r) = c :: r := by
  have : (w ++ c :: r).dropWhile (· ≤ 32) = c :: r := by
    rw [List.dropWhile_append_of_pos (by simpa using hw)]
    rw [List.dropWhile_cons]
    simp [show ¬ c ≤ 32 by omega]
  unfold skip
  rw [this]

theorem skip_self {c : Nat} {r : List Nat} (hc : 32 < c) : skip (c :: r) = c :: r :=
  skip_blank (w := []) (by simp) hc

theorem word_false {x c : Nat} {w r : List Nat} (h : x ≠ c) : word (x :: w) (c :: r) = false := by
  simp only [word, List.length_cons, List.take_succ_cons]
  rw [Bool.eq_false_iff]
  intro he
  have := eq_of_beq he
  simp only [List.cons.injEq] at this
  exact h this.1.symm

/-! ## What a value starts with decides how it is read -/

theorem parseValue_null (d : Nat) (r : List Nat) :
    parseValue d (110 :: 117 :: 108 :: 108 :: r) = some (.null, r) := by
  cases d <;> rw [parseValue.eq_def] <;> simp [word]

theorem parseValue_fls (d : Nat) (r : List Nat) :
    parseValue d (102 :: 97 :: 108 :: 115 :: 101 :: r) = some (.fls, r) := by
  cases d <;> rw [parseValue.eq_def] <;> simp [word]

theorem parseValue_tru (d : Nat) (r : List Nat) :
    parseValue d (116 :: 114 :: 117 :: 101 :: r) = some (.tru, r) := by
  cases d <;> rw [parseValue.eq_def] <;> simp [word]

theorem parseValue_str (d : Nat) (r : List Nat) :
    parseValue d (34 :: r) = (parseString (34 :: r)).map fun p => (.str p.1, p.2) := by
  cases d <;> rw [parseValue.eq_def] <;> simp [word]

theorem parseValue_num (d c : Nat) (r : List Nat) (h : c = 45 ∨ 48 ≤ c ∧ c ≤ 57) :
    parseValue d (c :: r) = parseNumber (c :: r) := by
  have w1 : ∀ l, word (110 :: l) (c :: r) = false := fun l => word_false (by omega)
  have w2 : ∀ l, word (102 :: l) (c :: r) = false := fun l => word_false (by omega)
  have w3 : ∀ l, word (116 :: l) (c :: r) = false := fun l => word_false (by omega)
  have h1 : c ≠ 34 := by omega
  cases d <;> rw [parseValue.eq_def] <;>
    simp only [w1, w2, w3, Bool.false_eq_true, if_false, h1, h, if_true]

theorem parseValue_arr (d : Nat) (r : List Nat) :
    parseValue (d + 1) (91 :: r) = parseArray (parseValue d) r := by
  rw [parseValue.eq_def]; simp [word]

theorem parseValue_arr0 (r : List Nat) : parseValue 0 (91 :: r) = none := by
  rw [parseValue.eq_def]; simp [word]

theorem parseValue_obj (d : Nat) (r : List Nat) :
    parseValue (d + 1) (123 :: r) = parseObject (parseValue d) r := by
  rw [parseValue.eq_def]; simp [word]

theorem parseValue_obj0 (r : List Nat) : parseValue 0 (123 :: r) = none := by
  rw [parseValue.eq_def]; simp [word]

theorem word_split {w t : List Nat} (h : word w t = true) : t = w ++ t.drop w.length := by
  have := eq_of_beq h
  conv => lhs; rw [← List.take_append_drop w.length t, this]

/-- All the ways to succeed. -/
theorem parseValue_cases {d : Nat} {t r : List Nat} {v : Item} (h : parseValue d t = some (v, r)) :
    (t = [110, 117, 108, 108] ++ r ∧ v = .null) ∨ (t = [102, 97, 108, 115, 101] ++ r ∧ v = .fls) ∨
    (t = [116, 114, 117, 101] ++ r ∧ v = .tru) ∨
    (∃ s, parseString t = some (s, r) ∧ v = .str s) ∨
    parseNumber t = some (v, r) ∨
    (∃ d' u, d = d' + 1 ∧ t = 91 :: u ∧ parseArray (parseValue d') u = some (v, r)) ∨
    (∃ d' u, d = d' + 1 ∧ t = 123 :: u ∧ parseObject (parseValue d') u = some (v, r)) := by
  rw [parseValue.eq_def] at h
  simp only at h
  split at h
  · next hw =>
    have := word_split hw
    cases h
    exact .inl ⟨this, rfl⟩
  split at h
  · next hw =>
    have := word_split hw
    cases h
    exact .inr (.inl ⟨this, rfl⟩)
  split at h
  · next hw =>
    have := word_split hw
    cases h
    exact .inr (.inr (.inl ⟨this, rfl⟩))
  cases t with
  | nil => cases h
  | cons c u =>
    simp only at h
    split at h
    · simp only [Option.map_eq_some_iff, Prod.exists, Prod.mk.injEq] at h
      obtain ⟨s, r', h1, rfl, rfl⟩ := h
      exact .inr (.inr (.inr (.inl ⟨s, h1, rfl⟩)))
    split at h
    · exact .inr (.inr (.inr (.inr (.inl h))))
    split at h
    · next hc =>
      subst hc
      cases d with
      | zero => cases h
      | succ d => exact .inr (.inr (.inr (.inr (.inr (.inl ⟨d, u, rfl, rfl, h⟩)))))
    split at h
    · next hc =>
      subst hc
      cases d with
      | zero => cases h
      | succ d => exact .inr (.inr (.inr (.inr (.inr (.inr ⟨d, u, rfl, rfl, h⟩)))))
    · cases h

/-! ## Every document is read as what it says -/

/-- What the tokens must be like to be read. -/
structure Good (L : Lex) : Prop where
  blank : ∀ c, L.blank c → c ≤ 32
  number : ∀ v t, L.number v t → ∃ b, Spec.Num b v t ∧ t.head? ≠ some 46
  string : ∀ t s, L.string t s → Spec.Str t s ∧ 0 ∉ s

theorem good_rfc : Good Spec.rfc where
  blank c h := by simp only [Spec.rfc] at h; omega
  number v t h := by
    refine ⟨true, h, ?_⟩
    obtain ⟨c, r, rfl, hc⟩ := num_head h
    simp only [List.head?_cons, ne_eq, Option.some.injEq]
    simp at hc
    omega
  string t s h := h

theorem blank_le {L : Lex} (hL : Good L) {w : List Nat} (h : Blank L w) : ∀ x ∈ w, x ≤ 32 :=
  fun x hx => hL.blank x (h x hx)

theorem num_start {L : Lex} (hL : Good L) {v : Item} {t : List Nat} (h : L.number v t) :
    ∃ c r, t = c :: r ∧ (c = 45 ∨ 48 ≤ c ∧ c ≤ 57) := by
  obtain ⟨b, h1, h2⟩ := hL.number v t h
  obtain ⟨c, r, rfl, hc⟩ := num_head h1
  simp only [List.head?_cons, ne_eq, Option.some.injEq] at h2
  exact ⟨c, r, rfl, by omega⟩

/-- A value starts with a byte that is not blank and closes nothing. -/
theorem val_start {L : Lex} (hL : Good L) {d : Nat} {v : Item} {t : List Nat} (h : Val L d v t) :
    ∃ c r, t = c :: r ∧ 32 < c ∧ c ≠ 93 ∧ c ≠ 125 ∧ c < 128 := by
  cases h with
  | null => exact ⟨_, _, rfl, by omega⟩
  | fls => exact ⟨_, _, rfl, by omega⟩
  | tru => exact ⟨_, _, rfl, by omega⟩
  | num d v t h =>
    obtain ⟨c, r, rfl, hc⟩ := num_start hL h
    exact ⟨c, r, rfl, by omega⟩
  | str => exact ⟨_, _, rfl, by omega⟩
  | arr0 => exact ⟨_, _, rfl, by omega⟩
  | arr => exact ⟨_, _, rfl, by omega⟩
  | obj0 => exact ⟨_, _, rfl, by omega⟩
  | obj => exact ⟨_, _, rfl, by omega⟩

/-- A byte that ends a number follows. -/
theorem stop_blank {w r : List Nat} {c : Nat} (hw : ∀ x ∈ w, x ≤ 32) (hc : numChar c = false) :
    (w ++ c :: r).head?.all (fun c => !numChar c) = true := by
  cases w with
  | nil => simp [hc]
  | cons x w =>
    have := hw x List.mem_cons_self
    simp [numChar]
    omega

mutual

theorem val_complete {L : Lex} (hL : Good L) {d : Nat} {v : Item} {t : List Nat} (h : Val L d v t)
    (b : Nat) (hb : d ≤ b) (r : List Nat) (hr : r.head?.all (fun c => !numChar c) = true) :
    parseValue b (t ++ r) = some (v, r) := by
  cases h with
  | null => exact parseValue_null b r
  | fls => exact parseValue_fls b r
  | tru => exact parseValue_tru b r
  | num d v t h =>
    obtain ⟨c, u, rfl, hc⟩ := num_start hL h
    obtain ⟨s, h1, -⟩ := hL.number _ _ h
    rw [List.cons_append, parseValue_num b c _ hc]
    exact parseNumber_complete h1 hr
  | str d t s h =>
    obtain ⟨h1, h2⟩ := hL.string _ _ h
    have e : 34 :: (t ++ [34]) ++ r = 34 :: (t ++ 34 :: r) := by simp
    rw [e, parseValue_str, parseString_complete h1 r, cstr_self h2]
    rfl
  | arr0 d w hw =>
    obtain ⟨b, rfl⟩ : ∃ b', b = b' + 1 := ⟨b - 1, by omega⟩
    have e : 91 :: (w ++ [93]) ++ r = 91 :: (w ++ 93 :: r) := by simp
    rw [e, parseValue_arr, parseArray, skip_blank (blank_le hL hw) (by omega)]
    rfl
  | arr d l t h =>
    obtain ⟨b, rfl⟩ : ∃ b', b = b' + 1 := ⟨b - 1, by omega⟩
    have e : 91 :: (t ++ [93]) ++ r = 91 :: (t ++ 93 :: r) := by simp
    have hc := elems_complete hL h b (by omega) r
    rw [e, parseValue_arr]
    exact hc.2
  | obj0 d w hw =>
    obtain ⟨b, rfl⟩ : ∃ b', b = b' + 1 := ⟨b - 1, by omega⟩
    have e : 123 :: (w ++ [125]) ++ r = 123 :: (w ++ 125 :: r) := by simp
    rw [e, parseValue_obj, parseObject, skip_blank (blank_le hL hw) (by omega)]
    rfl
  | obj d m t h =>
    obtain ⟨b, rfl⟩ : ∃ b', b = b' + 1 := ⟨b - 1, by omega⟩
    have e : 123 :: (t ++ [125]) ++ r = 123 :: (t ++ 125 :: r) := by simp
    have hc := mems_complete hL h b (by omega) r
    rw [e, parseValue_obj]
    exact hc.2

theorem elems_complete {L : Lex} (hL : Good L) {d : Nat} {l : Items} {t : List Nat}
    (h : Elems L d l t) (b : Nat) (hb : d ≤ b) (r : List Nat) :
    (∀ n, t.length < n → elems (parseValue b) n (t ++ 93 :: r) = some (l, r)) ∧
      parseArray (parseValue b) (t ++ 93 :: r) = some (.arr l, r) := by
  cases h with
  | one d v w t w' hw hw' h =>
    obtain ⟨c, u, rfl, h1, h2, -⟩ := val_start hL h
    have hv := val_complete hL h b hb (w' ++ 93 :: r) (stop_blank (blank_le hL hw') rfl)
    have key : ∀ (x : List Nat) (n : Nat), (∀ y ∈ x, y ≤ 32) → 0 < n →
        elems (parseValue b) n (x ++ (c :: u ++ w') ++ 93 :: r) = some (.cons v .nil, r) := by
      intro x n hx hn
      obtain ⟨n, rfl⟩ : ∃ m, n = m + 1 := ⟨n - 1, by omega⟩
      have e : x ++ (c :: u ++ w') ++ 93 :: r = x ++ c :: (u ++ (w' ++ 93 :: r)) := by simp
      rw [e, elems, skip_blank hx h1]
      rw [List.cons_append] at hv
      rw [hv]
      simp only
      rw [skip_blank (blank_le hL hw') (by omega)]
      rfl
    refine ⟨fun n hn => key w n (blank_le hL hw) (by omega), ?_⟩
    have e : w ++ (c :: u ++ w') ++ 93 :: r = w ++ c :: (u ++ (w' ++ 93 :: r)) := by simp
    rw [parseArray, e, skip_blank (blank_le hL hw) h1]
    simp only [h2, if_false]
    have := key [] (c :: (u ++ (w' ++ 93 :: r))).length (by simp) (by simp)
    simp only [List.nil_append, List.cons_append, List.append_assoc] at this ⊢
    rw [this]
    rfl
  | more d v l w t w' s hw hw' h hs =>
    obtain ⟨c, u, rfl, h1, h2, -⟩ := val_start hL h
    have hv := val_complete hL h b hb (w' ++ 44 :: (s ++ 93 :: r)) (stop_blank (blank_le hL hw') rfl)
    have hi := (elems_complete hL hs b hb r).1
    have key : ∀ (x : List Nat) (n : Nat), (∀ y ∈ x, y ≤ 32) → s.length + 1 < n →
        elems (parseValue b) n (x ++ (c :: u ++ (w' ++ 44 :: s)) ++ 93 :: r) =
          some (.cons v l, r) := by
      intro x n hx hn
      obtain ⟨n, rfl⟩ : ∃ m, n = m + 1 := ⟨n - 1, by omega⟩
      have e : x ++ (c :: u ++ (w' ++ 44 :: s)) ++ 93 :: r =
          x ++ c :: (u ++ (w' ++ 44 :: (s ++ 93 :: r))) := by simp
      rw [e, elems, skip_blank hx h1]
      rw [List.cons_append] at hv
      rw [hv]
      simp only
      rw [skip_blank (blank_le hL hw') (by omega)]
      simp only [if_true]
      rw [hi n (by omega)]
      rfl
    refine ⟨fun n hn => key w n (blank_le hL hw) ?_, ?_⟩
    · simp only [List.length_append, List.length_cons] at hn; omega
    have e : w ++ (c :: u ++ (w' ++ 44 :: s)) ++ 93 :: r =
        w ++ c :: (u ++ (w' ++ 44 :: (s ++ 93 :: r))) := by simp
    rw [parseArray, e, skip_blank (blank_le hL hw) h1]
    simp only [h2, if_false]
    have := key [] (c :: (u ++ (w' ++ 44 :: (s ++ 93 :: r)))).length (by simp)
      (by simp only [List.length_cons, List.length_append]; omega)
    simp only [List.nil_append, List.cons_append, List.append_assoc] at this ⊢
    rw [this]
    rfl

theorem mems_complete {L : Lex} (hL : Good L) {d : Nat} {m : Members} {t : List Nat}
    (h : Mems L d m t) (b : Nat) (hb : d ≤ b) (r : List Nat) :
    (∀ n, t.length < n → members (parseValue b) n (t ++ 125 :: r) = some (m, r)) ∧
      parseObject (parseValue b) (t ++ 125 :: r) = some (.obj m, r) := by
  cases h with
  | one d k v w kt w1 w2 t w' hw hk hw1 hw2 hw' h =>
    obtain ⟨c, u, rfl, h1, -, h2, -⟩ := val_start hL h
    obtain ⟨hk1, hk2⟩ := hL.string _ _ hk
    have hv := val_complete hL h b hb (w' ++ 125 :: r) (stop_blank (blank_le hL hw') rfl)
    have key : ∀ (x : List Nat) (n : Nat), (∀ y ∈ x, y ≤ 32) → 0 < n →
        members (parseValue b) n
          (x ++ 34 :: (kt ++ 34 :: (w1 ++ 58 :: (w2 ++ c :: (u ++ (w' ++ 125 :: r)))))) =
          some (.cons k v .nil, r) := by
      intro x n hx hn
      obtain ⟨n, rfl⟩ : ∃ m, n = m + 1 := ⟨n - 1, by omega⟩
      rw [members, skip_blank hx (by omega), parseString_complete hk1, cstr_self hk2]
      simp only
      rw [skip_blank (blank_le hL hw1) (by omega)]
      simp only [ne_eq, not_true_eq_false, if_false]
      rw [skip_blank (blank_le hL hw2) h1]
      rw [List.cons_append] at hv
      rw [hv]
      simp only
      rw [skip_blank (blank_le hL hw') (by omega)]
      rfl
    have e : w ++ 34 :: (kt ++ 34 :: (w1 ++ 58 :: (w2 ++ (c :: u ++ w')))) ++ 125 :: r =
        w ++ 34 :: (kt ++ 34 :: (w1 ++ 58 :: (w2 ++ c :: (u ++ (w' ++ 125 :: r))))) := by simp
    rw [e]
    refine ⟨fun n hn => key w n (blank_le hL hw) (by omega), ?_⟩
    rw [parseObject, skip_blank (blank_le hL hw) (by omega)]
    simp only [Nat.reduceEqDiff, if_false]
    have := key [] (34 :: (kt ++ 34 :: (w1 ++ 58 :: (w2 ++ c :: (u ++ (w' ++ 125 :: r)))))).length
      (by simp) (by simp)
    simp only [List.nil_append] at this
    rw [this]
    rfl
  | more d k v m w kt w1 w2 t w' s hw hk hw1 hw2 hw' h hs =>
    obtain ⟨c, u, rfl, h1, -, h2, -⟩ := val_start hL h
    obtain ⟨hk1, hk2⟩ := hL.string _ _ hk
    have hv := val_complete hL h b hb (w' ++ 44 :: (s ++ 125 :: r))
      (stop_blank (blank_le hL hw') rfl)
    have hi := (mems_complete hL hs b hb r).1
    have key : ∀ (x : List Nat) (n : Nat), (∀ y ∈ x, y ≤ 32) → s.length + 1 < n →
        members (parseValue b) n
          (x ++ 34 :: (kt ++ 34 :: (w1 ++ 58 :: (w2 ++ c :: (u ++ (w' ++ 44 :: (s ++ 125 :: r))))))) =
          some (.cons k v m, r) := by
      intro x n hx hn
      obtain ⟨n, rfl⟩ : ∃ m, n = m + 1 := ⟨n - 1, by omega⟩
      rw [members, skip_blank hx (by omega), parseString_complete hk1, cstr_self hk2]
      simp only
      rw [skip_blank (blank_le hL hw1) (by omega)]
      simp only [ne_eq, not_true_eq_false, if_false]
      rw [skip_blank (blank_le hL hw2) h1]
      rw [List.cons_append] at hv
      rw [hv]
      simp only
      rw [skip_blank (blank_le hL hw') (by omega)]
      simp only [if_true]
      rw [hi n (by omega)]
      rfl
    have e : w ++ 34 :: (kt ++ 34 :: (w1 ++ 58 :: (w2 ++ (c :: u ++ (w' ++ 44 :: s))))) ++ 125 :: r =
        w ++ 34 :: (kt ++ 34 :: (w1 ++ 58 :: (w2 ++ c :: (u ++ (w' ++ 44 :: (s ++ 125 :: r)))))) := by
      simp
    rw [e]
    refine ⟨fun n hn => key w n (blank_le hL hw) ?_, ?_⟩
    · simp only [List.length_append, List.length_cons] at hn; omega
    rw [parseObject, skip_blank (blank_le hL hw) (by omega)]
    simp only [Nat.reduceEqDiff, if_false]
    have := key []
      (34 :: (kt ++ 34 :: (w1 ++ 58 :: (w2 ++ c :: (u ++ (w' ++ 44 :: (s ++ 125 :: r))))))).length
      (by simp) (by simp only [List.length_cons, List.length_append]; omega)
    simp only [List.nil_append] at this
    rw [this]
    rfl

end

/-! ## Nothing else is accepted -/

theorem skip_split (t : List Nat) (c : Nat) (r : List Nat) (h : skip t = c :: r) (hc : 32 < c) :
    ∃ w, t = w ++ c :: r ∧ ∀ x ∈ w, x ≤ 32 := by
  have hs := List.takeWhile_append_dropWhile (p := fun x => decide (x ≤ 32)) (l := t)
  have hall : ∀ x ∈ t.takeWhile (fun x => decide (x ≤ 32)), x ≤ 32 := by
    intro x hx
    have := List.all_takeWhile (p := fun x => decide (x ≤ 32)) (l := t)
    rw [List.all_eq_true] at this
    simpa using this x hx
  unfold skip at h
  split at h
  · next he =>
    have : t.takeWhile (fun x => decide (x ≤ 32)) = t := by rw [he] at hs; simpa using hs
    rw [this] at hall
    have hm : c ∈ t := by
      have : c ∈ t.drop (t.length - 1) := by rw [h]; exact List.mem_cons_self
      exact List.mem_of_mem_drop this
    have := hall c hm
    omega
  · next c' r' he =>
    cases h
    exact ⟨_, by rw [← he]; exact hs.symm, hall⟩

/-- Only blanks are skipped. -/
theorem skip_any (t : List Nat) : ∃ w, t = w ++ skip t ∧ ∀ x ∈ w, x ≤ 32 := by
  have hs := List.takeWhile_append_dropWhile (p := fun x => decide (x ≤ 32)) (l := t)
  have hall : ∀ x ∈ t.takeWhile (fun x => decide (x ≤ 32)), x ≤ 32 := by
    intro x hx
    have := List.all_takeWhile (p := fun x => decide (x ≤ 32)) (l := t)
    rw [List.all_eq_true] at this
    simpa using this x hx
  unfold skip
  split
  · next he =>
    have : t.takeWhile (fun x => decide (x ≤ 32)) = t := by rw [he] at hs; simpa using hs
    rw [this] at hall
    exact ⟨t.take (t.length - 1), (List.take_append_drop _ _).symm,
      fun x hx => hall x (List.mem_of_mem_take hx)⟩
  · next c r he => exact ⟨_, by rw [← he]; exact hs.symm, hall⟩

/-- The bytes of a C string and its terminator. -/
def Term (t : List Nat) : Prop := ∃ u, t = u ++ [0] ∧ 0 ∉ u

theorem term_suffix {p r : List Nat} (h : Term (p ++ r)) (hp : 0 ∉ p) : Term r := by
  obtain ⟨u, he, hu⟩ := h
  rcases List.eq_nil_or_concat r with rfl | ⟨r', x, rfl⟩
  · rw [List.append_nil] at he
    exact absurd (by rw [he]; simp) hp
  · rw [List.concat_eq_append, ← List.append_assoc] at he
    obtain ⟨h1, h2⟩ := List.append_inj' he rfl
    refine ⟨r', by rw [List.concat_eq_append, h2], ?_⟩
    intro hm
    exact hu (by rw [← h1]; simp [hm])

theorem term_tail {c : Nat} {r : List Nat} (h : Term (c :: r)) (hc : c ≠ 0) : Term r :=
  term_suffix (p := [c]) h (by simpa using fun h => hc h.symm)

/-- Text before the last byte has no zero. -/
theorem term_prefix {p r : List Nat} {c : Nat} (h : Term (p ++ c :: r)) : 0 ∉ p := by
  obtain ⟨u, he, hu⟩ := h
  rcases List.eq_nil_or_concat (c :: r) with hn | ⟨r', x, hr⟩
  · cases hn
  · rw [hr, List.concat_eq_append, ← List.append_assoc] at he
    obtain ⟨h1, h2⟩ := List.append_inj' he rfl
    intro hm
    exact hu (by rw [← h1]; simp [hm])

theorem term_blank {w r : List Nat} {c : Nat} (h : Term (w ++ c :: r)) : Term (c :: r) :=
  term_suffix h (term_prefix h)

theorem parseString_sound {t r s : List Nat} (h : parseString t = some (s, r)) (hz : Term t) :
    ∃ b, t = 34 :: (b ++ 34 :: r) ∧ (Spec.Str b s ∨ Spec.Cut b s) ∧ Term r := by
  cases t with
  | nil => cases h
  | cons c t =>
    rw [parseString] at h
    split at h
    · cases h
    · next hc =>
      have hc' : c = 34 := by omega
      subst hc'
      split at h
      · cases h
      · next b rest hb =>
        simp only [Option.map_eq_some_iff, Prod.mk.injEq] at h
        obtain ⟨s', h1, rfl, rfl⟩ := h
        have e := scan_split _ t b rest (Nat.le_refl _) hb
        subst e
        have ht := term_tail hz (by omega)
        have hz' : 0 ∉ b := term_prefix ht
        refine ⟨b, rfl, ?_, term_tail (term_blank ht) (by omega)⟩
        rcases decode_sound _ b s' (Nat.le_refl _)
          (scan_clean _ _ b rest (Nat.le_refl _) hb) hz' h1 with h | h
        · exact .inl h.1
        · exact .inr h

/-- What a parser of values must satisfy. -/
def Sound (d : Nat) (pv : List Nat → Option (Item × List Nat)) : Prop :=
  ∀ t v r, Term t → pv t = some (v, r) → ∃ p, t = p ++ r ∧ Val Spec.loose d v p ∧ Term r

theorem loose_start {d : Nat} {v : Item} {t : List Nat} (h : Val Spec.loose d v t) :
    ∃ c r, t = c :: r ∧ 32 < c := by
  cases h with
  | null => exact ⟨_, _, rfl, by omega⟩
  | fls => exact ⟨_, _, rfl, by omega⟩
  | tru => exact ⟨_, _, rfl, by omega⟩
  | num d v t h =>
    obtain ⟨c, r, rfl, hc⟩ := num_head h
    exact ⟨c, r, rfl, by omega⟩
  | str => exact ⟨_, _, rfl, by omega⟩
  | arr0 => exact ⟨_, _, rfl, by omega⟩
  | arr => exact ⟨_, _, rfl, by omega⟩
  | obj0 => exact ⟨_, _, rfl, by omega⟩
  | obj => exact ⟨_, _, rfl, by omega⟩

/-- A value behind blanks. -/
theorem skip_value {d : Nat} {pv : List Nat → Option (Item × List Nat)} (hp : Sound d pv)
    {t r : List Nat} {v : Item} (hts : Term (skip t)) (h : pv (skip t) = some (v, r)) :
    ∃ w p, t = w ++ (p ++ r) ∧ (∀ x ∈ w, x ≤ 32) ∧ Val Spec.loose d v p ∧ Term r := by
  obtain ⟨p, e, hv, hr⟩ := hp _ v r hts h
  obtain ⟨c, u, rfl, hc⟩ := loose_start hv
  obtain ⟨w, hw, hb⟩ := skip_split t c (u ++ r) e hc
  exact ⟨w, c :: u, hw, hb, hv, hr⟩

/-- The blanks can be skipped without losing the terminator. -/
theorem term_skip {t : List Nat} (h : Term t) : Term (skip t) := by
  obtain ⟨u, rfl, hu⟩ := h
  have hs := List.takeWhile_append_dropWhile (p := fun x => decide (x ≤ 32)) (l := u ++ [0])
  unfold skip
  split
  · refine ⟨[], ?_, by simp⟩
    have e : (u ++ [0]).length - 1 = u.length := by simp
    rw [e, List.drop_left]
    rfl
  · next c r he =>
    rw [he] at hs
    exact term_blank (w := (u ++ [0]).takeWhile _) ⟨u, hs, hu⟩

theorem skip_byte {t r : List Nat} {c : Nat} (ht : Term t) (h : skip t = c :: r) (hc : 32 < c) :
    ∃ w, t = w ++ c :: r ∧ (∀ x ∈ w, x ≤ 32) ∧ Term r := by
  obtain ⟨w, hw, hb⟩ := skip_split t c r h hc
  have := term_skip ht
  rw [h] at this
  exact ⟨w, hw, hb, term_tail this (by omega)⟩

theorem elems_sound {d : Nat} {pv : List Nat → Option (Item × List Nat)} (hp : Sound d pv) :
    ∀ (n : Nat) (t : List Nat) (l : Items) (r : List Nat), Term t → elems pv n t = some (l, r) →
      ∃ p, t = p ++ 93 :: r ∧ Elems Spec.loose d l p ∧ Term r
  | 0, _, _, _, _, h => by cases h
  | n + 1, t, l, r, ht, h => by
    rw [elems] at h
    split at h
    · cases h
    · next v t1 hv =>
      obtain ⟨w, p, rfl, hw, hval, ht1⟩ := skip_value hp (term_skip ht) hv
      split at h
      · cases h
      · next c r1 hs =>
        split at h
        · next hc =>
          subst hc
          simp only [Option.map_eq_some_iff, Prod.exists, Prod.mk.injEq] at h
          obtain ⟨l', r', h1, rfl, rfl⟩ := h
          obtain ⟨w', rfl, hw', htr⟩ := skip_byte ht1 hs (by omega)
          obtain ⟨q, rfl, hq, hr⟩ := elems_sound hp n r1 l' r' htr h1
          exact ⟨w ++ (p ++ (w' ++ 44 :: q)), by simp, .more d v l' w p w' q hw hw' hval hq, hr⟩
        · split at h
          · next hc =>
            subst hc
            obtain ⟨w', rfl, hw', htr⟩ := skip_byte ht1 hs (by omega)
            cases h
            exact ⟨w ++ (p ++ w'), by simp, .one d v w p w' hw hw' hval, htr⟩
          · cases h

theorem members_sound {d : Nat} {pv : List Nat → Option (Item × List Nat)} (hp : Sound d pv) :
    ∀ (n : Nat) (t : List Nat) (m : Members) (r : List Nat), Term t →
      members pv n t = some (m, r) → ∃ p, t = p ++ 125 :: r ∧ Mems Spec.loose d m p ∧ Term r
  | 0, _, _, _, _, h => by cases h
  | n + 1, t, m, r, ht, h => by
    rw [members] at h
    split at h
    · cases h
    · next k t1 hk =>
      obtain ⟨b, hb1, hb2, ht1⟩ := parseString_sound hk (term_skip ht)
      obtain ⟨w, rfl, hw, -⟩ := skip_byte ht hb1 (by omega)
      split at h
      · cases h
      · next c r1 hs1 =>
        split at h
        · cases h
        · next hc =>
          have hc' : c = 58 := by omega
          subst hc'
          obtain ⟨w1, rfl, hw1, ht2⟩ := skip_byte ht1 hs1 (by omega)
          split at h
          · cases h
          · next v t2 hv =>
            obtain ⟨w2, p, rfl, hw2, hval, ht3⟩ := skip_value hp (term_skip ht2) hv
            split at h
            · cases h
            · next c r2 hs =>
              split at h
              · next hc =>
                subst hc
                simp only [Option.map_eq_some_iff, Prod.exists, Prod.mk.injEq] at h
                obtain ⟨m', r', h1, rfl, rfl⟩ := h
                obtain ⟨w', rfl, hw', htr⟩ := skip_byte ht3 hs (by omega)
                obtain ⟨q, rfl, hq, hr⟩ := members_sound hp n r2 m' r' htr h1
                exact ⟨w ++ 34 :: (b ++ 34 :: (w1 ++ 58 :: (w2 ++ (p ++ (w' ++ 44 :: q))))), by simp,
                  .more d k v m' w b w1 w2 p w' q hw hb2 hw1 hw2 hw' hval hq, hr⟩
              · split at h
                · next hc =>
                  subst hc
                  obtain ⟨w', rfl, hw', htr⟩ := skip_byte ht3 hs (by omega)
                  cases h
                  exact ⟨w ++ 34 :: (b ++ 34 :: (w1 ++ 58 :: (w2 ++ (p ++ w')))), by simp,
                    .one d k v w b w1 w2 p w' hw hb2 hw1 hw2 hw' hval, htr⟩
                · cases h

theorem num_no_zero {b : Bool} {v : Item} {t : List Nat} (h : Spec.Num b v t) : 0 ∉ t := by
  intro hm
  have := num_chars h 0 hm
  cases this

theorem elems_blank {L : Lex} {d : Nat} {l : Items} {w t : List Nat} (hw : Blank L w)
    (h : Elems L d l t) : Elems L d l (w ++ t) := by
  have app : ∀ x, Blank L x → Blank L (w ++ x) := by
    intro x hx c hc
    rcases List.mem_append.1 hc with hc | hc
    · exact hw c hc
    · exact hx c hc
  cases h with
  | one d v x t w' hx hw' h =>
    rw [← List.append_assoc]
    exact .one d v (w ++ x) t w' (app x hx) hw' h
  | more d v l x t w' r hx hw' h hr =>
    rw [← List.append_assoc]
    exact .more d v l (w ++ x) t w' r (app x hx) hw' h hr

theorem mems_blank {L : Lex} {d : Nat} {m : Members} {w t : List Nat} (hw : Blank L w)
    (h : Mems L d m t) : Mems L d m (w ++ t) := by
  have app : ∀ x, Blank L x → Blank L (w ++ x) := by
    intro x hx c hc
    rcases List.mem_append.1 hc with hc | hc
    · exact hw c hc
    · exact hx c hc
  cases h with
  | one d k v x kt w1 w2 t w' hx hk hw1 hw2 hw' h =>
    rw [← List.append_assoc]
    exact .one d k v (w ++ x) kt w1 w2 t w' (app x hx) hk hw1 hw2 hw' h
  | more d k v m x kt w1 w2 t w' r hx hk hw1 hw2 hw' h hr =>
    rw [← List.append_assoc]
    exact .more d k v m (w ++ x) kt w1 w2 t w' r (app x hx) hk hw1 hw2 hw' h hr

/-- `parse_value` accepts only JSON over the loose tokens, nested no deeper than allowed. -/
theorem val_sound : ∀ (d : Nat), Sound d (parseValue d) := by
  intro d
  induction d with
  | zero =>
    intro t v r ht h
    rcases parseValue_cases h with ⟨rfl, rfl⟩ | ⟨rfl, rfl⟩ | ⟨rfl, rfl⟩ | ⟨s, hs, rfl⟩ | hn |
      ⟨d', u, hd, -⟩ | ⟨d', u, hd, -⟩
    · exact ⟨_, rfl, .null 0, term_suffix ht (by simp)⟩
    · exact ⟨_, rfl, .fls 0, term_suffix ht (by simp)⟩
    · exact ⟨_, rfl, .tru 0, term_suffix ht (by simp)⟩
    · obtain ⟨b, rfl, h1, h2⟩ := parseString_sound hs ht
      exact ⟨34 :: (b ++ [34]), by simp, .str 0 b s h1, h2⟩
    · obtain ⟨p, rfl, h1⟩ := parseNumber_sound hn
      exact ⟨p, rfl, .num 0 v p h1, term_suffix ht (num_no_zero h1)⟩
    · omega
    · omega
  | succ d ih =>
    intro t v r ht h
    rcases parseValue_cases h with ⟨rfl, rfl⟩ | ⟨rfl, rfl⟩ | ⟨rfl, rfl⟩ | ⟨s, hs, rfl⟩ | hn |
      ⟨d', u, hd, rfl, ha⟩ | ⟨d', u, hd, rfl, ho⟩
    · exact ⟨_, rfl, .null _, term_suffix ht (by simp)⟩
    · exact ⟨_, rfl, .fls _, term_suffix ht (by simp)⟩
    · exact ⟨_, rfl, .tru _, term_suffix ht (by simp)⟩
    · obtain ⟨b, rfl, h1, h2⟩ := parseString_sound hs ht
      exact ⟨34 :: (b ++ [34]), by simp, .str _ b s h1, h2⟩
    · obtain ⟨p, rfl, h1⟩ := parseNumber_sound hn
      exact ⟨p, rfl, .num _ v p h1, term_suffix ht (num_no_zero h1)⟩
    · cases hd
      have hu := term_tail ht (by omega)
      unfold parseArray at ha
      split at ha
      · cases ha
      · next c r1 hs =>
        split at ha
        · next hc =>
          subst hc
          cases ha
          obtain ⟨w, rfl, hw, hr⟩ := skip_byte hu hs (by omega)
          exact ⟨91 :: (w ++ [93]), by simp, .arr0 d w hw, hr⟩
        · simp only [Option.map_eq_some_iff, Prod.exists, Prod.mk.injEq] at ha
          obtain ⟨l, r', h1, rfl, rfl⟩ := ha
          have htc : Term (c :: r1) := by rw [← hs]; exact term_skip hu
          obtain ⟨p, hp, he, hr⟩ := elems_sound ih _ _ l r' htc h1
          obtain ⟨w, hw1, hw⟩ := skip_any u
          rw [hs, hp] at hw1
          rw [hw1]
          exact ⟨91 :: ((w ++ p) ++ [93]), by simp, .arr d l (w ++ p) (elems_blank hw he), hr⟩
    · cases hd
      have hu := term_tail ht (by omega)
      unfold parseObject at ho
      split at ho
      · cases ho
      · next c r1 hs =>
        split at ho
        · next hc =>
          subst hc
          cases ho
          obtain ⟨w, rfl, hw, hr⟩ := skip_byte hu hs (by omega)
          exact ⟨123 :: (w ++ [125]), by simp, .obj0 d w hw, hr⟩
        · simp only [Option.map_eq_some_iff, Prod.exists, Prod.mk.injEq] at ho
          obtain ⟨m, r', h1, rfl, rfl⟩ := ho
          have htc : Term (c :: r1) := by rw [← hs]; exact term_skip hu
          obtain ⟨p, hp, he, hr⟩ := members_sound ih _ _ m r' htc h1
          obtain ⟨w, hw1, hw⟩ := skip_any u
          rw [hs, hp] at hw1
          rw [hw1]
          exact ⟨123 :: ((w ++ p) ++ [125]), by simp, .obj d m (w ++ p) (mems_blank hw he), hr⟩

/-! ## The loops need no more turns than the text is long -/

/-- A parser of values consumes something. -/
def Shrinks (pv : List Nat → Option (Item × List Nat)) : Prop :=
  ∀ t v r, pv t = some (v, r) → r.length < t.length

theorem skip_le (t : List Nat) : (skip t).length ≤ t.length := by
  obtain ⟨w, hw, -⟩ := skip_any t
  have := congrArg List.length hw
  simp only [List.length_append] at this
  omega

theorem parseString_shrinks {t r s : List Nat} (h : parseString t = some (s, r)) :
    r.length < t.length := by
  cases t with
  | nil => cases h
  | cons c t =>
    rw [parseString] at h
    split at h
    · cases h
    · split at h
      · cases h
      · next b rest hb =>
        simp only [Option.map_eq_some_iff, Prod.mk.injEq] at h
        obtain ⟨s', -, -, rfl⟩ := h
        have e := congrArg List.length (scan_split _ t b rest (Nat.le_refl _) hb)
        simp only [List.length_append, List.length_cons] at e ⊢
        omega

theorem elems_shrinks {pv : List Nat → Option (Item × List Nat)} (hp : Shrinks pv) :
    ∀ (n : Nat) (t : List Nat) (l : Items) (r : List Nat), elems pv n t = some (l, r) →
      r.length < t.length
  | 0, _, _, _, h => by cases h
  | n + 1, t, l, r, h => by
    rw [elems] at h
    split at h
    · cases h
    · next v t1 hv =>
      have h1 := hp _ _ _ hv
      have h2 := skip_le t
      split at h
      · cases h
      · next c r1 hs =>
        have h3 := skip_le t1
        rw [hs] at h3
        simp only [List.length_cons] at h3
        split at h
        · simp only [Option.map_eq_some_iff, Prod.exists, Prod.mk.injEq] at h
          obtain ⟨l', r', h4, -, rfl⟩ := h
          have := elems_shrinks hp n r1 l' r' h4
          omega
        · split at h
          · cases h; omega
          · cases h

theorem members_shrinks {pv : List Nat → Option (Item × List Nat)} (hp : Shrinks pv) :
    ∀ (n : Nat) (t : List Nat) (m : Members) (r : List Nat), members pv n t = some (m, r) →
      r.length < t.length
  | 0, _, _, _, h => by cases h
  | n + 1, t, m, r, h => by
    rw [members] at h
    split at h
    · cases h
    · next k t1 hk =>
      have h1 := parseString_shrinks hk
      have h2 := skip_le t
      split at h
      · cases h
      · next c r1 hs1 =>
        have h3 := skip_le t1
        rw [hs1] at h3
        simp only [List.length_cons] at h3
        split at h
        · cases h
        · split at h
          · cases h
          · next v t2 hv =>
            have h4 := hp _ _ _ hv
            have h5 := skip_le r1
            split at h
            · cases h
            · next c r2 hs =>
              have h6 := skip_le t2
              rw [hs] at h6
              simp only [List.length_cons] at h6
              split at h
              · simp only [Option.map_eq_some_iff, Prod.exists, Prod.mk.injEq] at h
                obtain ⟨m', r', h7, -, rfl⟩ := h
                have := members_shrinks hp n r2 m' r' h7
                omega
              · split at h
                · cases h; omega
                · cases h

theorem val_shrinks : ∀ (d : Nat), Shrinks (parseValue d) := by
  intro d
  induction d with
  | zero =>
    intro t v r h
    rcases parseValue_cases h with ⟨rfl, rfl⟩ | ⟨rfl, rfl⟩ | ⟨rfl, rfl⟩ | ⟨s, hs, rfl⟩ | hn |
      ⟨d', u, hd, -⟩ | ⟨d', u, hd, -⟩
    · simp; omega
    · simp; omega
    · simp; omega
    · exact parseString_shrinks hs
    · obtain ⟨p, rfl, h1⟩ := parseNumber_sound hn
      obtain ⟨c, u, rfl, -⟩ := num_head h1
      simp; omega
    · omega
    · omega
  | succ d ih =>
    intro t v r h
    rcases parseValue_cases h with ⟨rfl, rfl⟩ | ⟨rfl, rfl⟩ | ⟨rfl, rfl⟩ | ⟨s, hs, rfl⟩ | hn |
      ⟨d', u, hd, rfl, ha⟩ | ⟨d', u, hd, rfl, ho⟩
    · simp; omega
    · simp; omega
    · simp; omega
    · exact parseString_shrinks hs
    · obtain ⟨p, rfl, h1⟩ := parseNumber_sound hn
      obtain ⟨c, u, rfl, -⟩ := num_head h1
      simp; omega
    · cases hd
      unfold parseArray at ha
      have h1 := skip_le u
      split at ha
      · cases ha
      · next c r1 hs =>
        rw [hs] at h1
        simp only [List.length_cons] at h1 ⊢
        split at ha
        · cases ha; omega
        · simp only [Option.map_eq_some_iff, Prod.exists, Prod.mk.injEq] at ha
          obtain ⟨l, r', h2, -, rfl⟩ := ha
          have := elems_shrinks ih _ _ l r' h2
          simp only [List.length_cons] at this
          omega
    · cases hd
      unfold parseObject at ho
      have h1 := skip_le u
      split at ho
      · cases ho
      · next c r1 hs =>
        rw [hs] at h1
        simp only [List.length_cons] at h1 ⊢
        split at ho
        · cases ho; omega
        · simp only [Option.map_eq_some_iff, Prod.exists, Prod.mk.injEq] at ho
          obtain ⟨l, r', h2, -, rfl⟩ := ho
          have := members_shrinks ih _ _ l r' h2
          simp only [List.length_cons] at this
          omega

theorem elems_more {pv : List Nat → Option (Item × List Nat)} (hp : Shrinks pv) :
    ∀ (n : Nat) (t : List Nat), t.length ≤ n → elems pv (n + 1) t = elems pv n t
  | 0, t, h => by
    rw [elems.eq_def pv 0 t, elems]
    split
    · rfl
    · next v t1 hv =>
      have := hp _ _ _ hv
      have := skip_le t
      omega
  | n + 1, t, h => by
    rw [elems, elems.eq_def pv (n + 1) t]
    simp only
    split
    · rfl
    · next v t1 hv =>
      have h1 := hp _ _ _ hv
      have h2 := skip_le t
      split
      · rfl
      · next c r hs =>
        have h3 := skip_le t1
        rw [hs] at h3
        simp only [List.length_cons] at h3
        rw [elems_more hp n r (by omega)]

theorem members_more {pv : List Nat → Option (Item × List Nat)} (hp : Shrinks pv) :
    ∀ (n : Nat) (t : List Nat), t.length ≤ n → members pv (n + 1) t = members pv n t
  | 0, t, h => by
    rw [members.eq_def pv 0 t, members]
    split
    · rfl
    · next v t1 hv =>
      have := parseString_shrinks hv
      have := skip_le t
      omega
  | n + 1, t, h => by
    rw [members, members.eq_def pv (n + 1) t]
    simp only
    split
    · rfl
    · next k t1 hk =>
      have h1 := parseString_shrinks hk
      have h2 := skip_le t
      split
      · rfl
      · next c r1 hs1 =>
        have h3 := skip_le t1
        rw [hs1] at h3
        simp only [List.length_cons] at h3
        split
        · rfl
        · split
          · rfl
          · next v t2 hv =>
            have h4 := hp _ _ _ hv
            have h5 := skip_le r1
            split
            · rfl
            · next c r2 hs =>
              have h6 := skip_le t2
              rw [hs] at h6
              simp only [List.length_cons] at h6
              rw [members_more hp n r2 (by omega)]

/-- The loops of the model end by themselves: with any number of turns at least the length of the
text the result is the same. -/
theorem loops_fuel (d n : Nat) (t : List Nat) (h : t.length ≤ n) :
    elems (parseValue d) n t = elems (parseValue d) t.length t ∧
      members (parseValue d) n t = members (parseValue d) t.length t := by
  obtain ⟨k, rfl⟩ : ∃ k, n = t.length + k := ⟨n - t.length, by omega⟩
  clear h
  induction k with
  | zero => exact ⟨rfl, rfl⟩
  | succ k ih =>
    rw [← Nat.add_assoc, elems_more (val_shrinks d) _ _ (by omega),
      members_more (val_shrinks d) _ _ (by omega)]
    exact ih

/-! ## The nesting -/

mutual

theorem val_depth {L : Lex} (hL : ∀ v t, L.number v t → Spec.depth v = 0) {d : Nat} {v : Item}
    {t : List Nat} (h : Val L d v t) : Spec.depth v ≤ d := by
  cases h with
  | null => exact Nat.zero_le _
  | fls => exact Nat.zero_le _
  | tru => exact Nat.zero_le _
  | num d v t h => rw [hL v t h]; exact Nat.zero_le _
  | str => exact Nat.zero_le _
  | arr0 => simp [Spec.depth, Spec.depthElems]
  | arr d l t h => have := elems_depth hL h; rw [Spec.depth]; omega
  | obj0 => simp [Spec.depth, Spec.depthMems]
  | obj d m t h => have := mems_depth hL h; rw [Spec.depth]; omega

theorem elems_depth {L : Lex} (hL : ∀ v t, L.number v t → Spec.depth v = 0) {d : Nat} {l : Items}
    {t : List Nat} (h : Elems L d l t) : Spec.depthElems l ≤ d := by
  cases h with
  | one d v w t w' hw hw' h =>
    have := val_depth hL h
    rw [Spec.depthElems, Spec.depthElems]; omega
  | more d v l w t w' r hw hw' h hr =>
    have := val_depth hL h
    have := elems_depth hL hr
    rw [Spec.depthElems]; omega

theorem mems_depth {L : Lex} (hL : ∀ v t, L.number v t → Spec.depth v = 0) {d : Nat} {m : Members}
    {t : List Nat} (h : Mems L d m t) : Spec.depthMems m ≤ d := by
  cases h with
  | one d k v w kt w1 w2 t w' hw hk hw1 hw2 hw' h =>
    have := val_depth hL h
    rw [Spec.depthMems, Spec.depthMems]; omega
  | more d k v m w kt w1 w2 t w' r hw hk hw1 hw2 hw' h hr =>
    have := val_depth hL h
    have := mems_depth hL hr
    rw [Spec.depthMems]; omega

end

theorem num_depth {b : Bool} {v : Item} {t : List Nat} (h : Spec.Num b v t) : Spec.depth v = 0 := by
  cases h <;> rfl

/-! ## What is printed is JSON for the value -/

theorem blank_tabs (n : Nat) : Blank Spec.rfc (tabs n) := by
  intro c hc
  simp only [tabs, List.mem_replicate] at hc
  simp only [Spec.rfc]; omega

theorem blank_nil {L : Lex} : Blank L [] := by intro c hc; cases hc

theorem blank_one {c : Nat} (h : c = 32 ∨ c = 9 ∨ c = 10 ∨ c = 13) : Blank Spec.rfc [c] := by
  intro x hx
  simp only [List.mem_cons, List.not_mem_nil, or_false] at hx
  subst hx; exact h

theorem blank_append {L : Lex} {a b : List Nat} (ha : Blank L a) (hb : Blank L b) :
    Blank L (a ++ b) := by
  intro c hc
  rcases List.mem_append.1 hc with hc | hc
  · exact ha c hc
  · exact hb c hc

theorem plain_str {s : List Nat} (h : ∀ c ∈ s, 0 < c ∧ c < 256) :
    Spec.Str (printBytes s) s ∧ 0 ∉ s :=
  ⟨printBytes_str fun c hc => (h c hc).2, fun hm => by have := (h 0 hm).1; omega⟩

mutual

theorem print_val (fmt : Bool) : ∀ (v : Item), Spec.Plain v → ∀ (k d : Nat), Spec.depth v ≤ d →
    Val Spec.rfc d v (printValue fmt k v)
  | .null, _, k, d, _ => by rw [printValue]; exact .null d
  | .fls, _, k, d, _ => by rw [printValue]; exact .fls d
  | .tru, _, k, d, _ => by rw [printValue]; exact .tru d
  | .num i, _, k, d, _ => by rw [printValue]; exact .num d _ _ (printInt_num i)
  | .real t, h, _, _, _ => by rw [Spec.Plain] at h; exact h.elim
  | .str s, h, k, d, _ => by
    rw [Spec.Plain] at h
    rw [printValue]
    exact .str d _ s (plain_str h)
  | .arr .nil, _, k, d, hd => by
    rw [Spec.depth] at hd
    obtain ⟨d, rfl⟩ : ∃ e, d = e + 1 := ⟨d - 1, by omega⟩
    rw [printValue, printElems]
    exact .arr0 d [] blank_nil
  | .arr (.cons x y), h, k, d, hd => by
    rw [Spec.depth] at hd
    rw [Spec.Plain] at h
    obtain ⟨d, rfl⟩ : ∃ e, d = e + 1 := ⟨d - 1, by omega⟩
    rw [printValue]
    exact .arr d _ _ (print_elems fmt (.cons x y) h (k + 1) d (by omega) (by simp))
  | .obj .nil, _, k, d, hd => by
    rw [Spec.depth] at hd
    obtain ⟨d, rfl⟩ : ∃ e, d = e + 1 := ⟨d - 1, by omega⟩
    rw [printValue, printMembers]
    cases fmt
    · exact .obj0 d [] blank_nil
    · exact .obj0 d ([10] ++ [] ++ tabs k) (blank_append (blank_append (blank_one (by omega))
        blank_nil) (blank_tabs k))
  | .obj (.cons x y z), h, k, d, hd => by
    rw [Spec.depth] at hd
    rw [Spec.Plain] at h
    obtain ⟨d, rfl⟩ : ∃ e, d = e + 1 := ⟨d - 1, by omega⟩
    rw [printValue]
    have hp : Blank Spec.rfc (if fmt then tabs k else []) := by
      cases fmt
      · exact blank_nil
      · exact blank_tabs k
    have hn : Blank Spec.rfc (if fmt then [10] else []) := by
      cases fmt
      · exact blank_nil
      · exact blank_one (by omega)
    have := print_mems fmt (.cons x y z) h (k + 1) d (by omega) (by simp) _ hp
    have := mems_blank hn this
    rw [← List.append_assoc] at this
    exact .obj d _ _ this

theorem print_elems (fmt : Bool) : ∀ (l : Items), Spec.PlainElems l →
    ∀ (k d : Nat), Spec.depthElems l ≤ d → l ≠ .nil → Elems Spec.rfc d l (printElems fmt k l)
  | .nil, _, _, _, _, hn => absurd rfl hn
  | .cons v .nil, h, k, d, hd, _ => by
    rw [Spec.PlainElems] at h
    rw [Spec.depthElems] at hd
    rw [printElems]
    have := Elems.one d v [] _ [] blank_nil blank_nil (print_val fmt v h.1 k d (by omega))
    simpa using this
  | .cons v (.cons w l), h, k, d, hd, _ => by
    rw [Spec.PlainElems] at h
    rw [Spec.depthElems] at hd
    rw [printElems]
    have hv := print_val fmt v h.1 k d (by omega)
    have hl := print_elems fmt (.cons w l) h.2 k d (by omega) (by simp)
    cases fmt
    · have := Elems.more d v _ [] _ [] _ blank_nil blank_nil hv hl
      simpa using this
    · have := Elems.more d v _ [] _ [] _ blank_nil blank_nil hv
        (elems_blank (w := [32]) (blank_one (by omega)) hl)
      simpa using this

theorem print_mems (fmt : Bool) : ∀ (m : Members), Spec.PlainMems m →
    ∀ (k d : Nat), Spec.depthMems m ≤ d → m ≠ .nil → ∀ post, Blank Spec.rfc post →
    Mems Spec.rfc d m (printMembers fmt k m ++ post)
  | .nil, _, _, _, _, hn, _, _ => absurd rfl hn
  | .cons k' v .nil, h, k, d, hd, _, post, hpost => by
    rw [Spec.PlainMems] at h
    rw [Spec.depthMems] at hd
    rw [printMembers]
    have hv := print_val fmt v h.2.1 k d (by omega)
    have hs := plain_str h.1
    cases fmt
    · have := Mems.one d k' v [] _ [] [] _ post blank_nil hs blank_nil blank_nil hpost hv
      simpa [printString] using this
    · have := Mems.one d k' v (tabs k) _ [] [9] _ ([10] ++ post) (blank_tabs k) hs blank_nil
        (blank_one (by omega)) (blank_append (blank_one (by omega)) hpost) hv
      simpa [printString] using this
  | .cons k' v (.cons k2 w m), h, k, d, hd, _, post, hpost => by
    rw [Spec.PlainMems] at h
    rw [Spec.depthMems] at hd
    rw [printMembers]
    have hv := print_val fmt v h.2.1 k d (by omega)
    have hs := plain_str h.1
    have hm := print_mems fmt (.cons k2 w m) h.2.2 k d (by omega) (by simp) post hpost
    cases fmt
    · have := Mems.more d k' v _ [] _ [] [] _ [] _ blank_nil hs blank_nil blank_nil blank_nil hv hm
      simpa [printString] using this
    · have := Mems.more d k' v _ (tabs k) _ [] [9] _ [] _ (blank_tabs k) hs blank_nil
        (blank_one (by omega)) blank_nil hv (mems_blank (w := [10]) (blank_one (by omega)) hm)
      simpa [printString] using this

end

end Verif.CJson
