import Verif.Str.Model
import Verif.Vec.Lemmas

/-! # Lemmas for `std/string.zc` -/

namespace Verif.Str
open Verif

/-- The memory block starts with the bytes of `t` and a zero byte. -/
def CText (m : Mem Byte) (t : List Byte) : Prop :=
  0 ∉ t ∧ ∃ rest, m = t.map some ++ some 0 :: rest

/-- The string object represents the text `t`. -/
def Text (s : Str) (t : List Byte) : Prop := Vec.Holds s (t ++ [0]) ∧ 0 ∉ t

theorem Text.ctext {s : Str} {t : List Byte} (h : Text s t) : CText s.buf t := by
  obtain ⟨⟨rest, hb, _, _⟩, h0⟩ := h
  exact ⟨h0, rest, by rw [hb]; simp⟩

theorem Text.length {s : Str} {t : List Byte} (h : Text s t) : length s = t.length := by
  obtain ⟨⟨rest, hb, hl, _⟩, h0⟩ := h
  unfold Str.length; rw [hl]; simp

theorem lit_no_zero (bs : List Byte) : 0 ∉ Spec.lit bs := by
  unfold Spec.lit
  induction bs with
  | nil => simp
  | cons c bs ih =>
    rw [List.takeWhile_cons]
    split
    · rename_i hc
      simp only [List.mem_cons, not_or]
      refine ⟨fun h => ?_, ih⟩
      subst h; simp at hc
    · simp

theorem cmem_ctext (bs : List Byte) : CText (cmem bs) (Spec.lit bs) := by
  refine ⟨lit_no_zero bs, ?_⟩
  induction bs with
  | nil => exact ⟨[], rfl⟩
  | cons c bs ih =>
    by_cases hc : c = 0
    · subst hc; exact ⟨cmem bs, by simp [cmem, Spec.lit]⟩
    · obtain ⟨rest, hr⟩ := ih
      refine ⟨rest, ?_⟩
      have : Spec.lit (c :: bs) = c :: Spec.lit bs := by simp [Spec.lit, hc]
      rw [this]
      simp only [List.map_cons, List.cons_append]
      rw [← hr]; rfl

theorem CText.strlen {m : Mem Byte} {t : List Byte} (h : CText m t) : strlen m = .ok t.length := by
  obtain ⟨h0, rest, rfl⟩ := h
  induction t with
  | nil => simp [Str.strlen]
  | cons c t ih =>
    simp only [List.mem_cons, not_or] at h0
    have hc : c ≠ 0 := fun h => h0.1 h.symm
    simp [Str.strlen, hc, ih h0.2]

theorem CText.readC {m : Mem Byte} {t : List Byte} (h : CText m t) : readC m = .ok t := by
  obtain ⟨h0, rest, rfl⟩ := h
  induction t with
  | nil => simp [Str.readC]
  | cons c t ih =>
    simp only [List.mem_cons, not_or] at h0
    have hc : c ≠ 0 := fun h => h0.1 h.symm
    simp [Str.readC, hc, ih h0.2]

theorem CText.load {m : Mem Byte} {t : List Byte} (h : CText m t) {i : Nat} (hi : i < t.length) :
    Mem.load m i = .ok t[i] := by
  obtain ⟨h0, rest, rfl⟩ := h
  rw [Mem.load_ok_iff, List.getElem?_append_left (by simpa using hi)]
  simp [hi]

theorem CText.drop {m : Mem Byte} {t : List Byte} (h : CText m t) {k : Nat} (hk : k ≤ t.length) :
    CText (m.drop k) (t.drop k) := by
  obtain ⟨h0, rest, rfl⟩ := h
  refine ⟨fun hm => h0 (List.mem_of_mem_drop hm), rest, ?_⟩
  rw [List.drop_append_of_le_length (by simpa using hk), List.map_drop]

theorem CText.strcmp {a b : Mem Byte} {t u : List Byte} (ha : CText a t) (hb : CText b u) :
    strcmpEq a b = .ok (decide (t = u)) := by
  obtain ⟨h0, r, rfl⟩ := ha
  obtain ⟨h1, r', rfl⟩ := hb
  induction t generalizing u with
  | nil =>
    cases u with
    | nil => simp [strcmpEq]
    | cons d u =>
      simp only [List.mem_cons, not_or] at h1
      simp [strcmpEq, h1.1]
  | cons c t ih =>
    simp only [List.mem_cons, not_or] at h0
    have hc : c ≠ 0 := fun h => h0.1 h.symm
    cases u with
    | nil => simp [strcmpEq, hc]
    | cons d u =>
      simp only [List.mem_cons, not_or] at h1
      by_cases hcd : c = d
      · subst hcd
        simp [strcmpEq, hc, ih h0.2 h1.2]
      · simp [strcmpEq, hcd]

theorem CText.strncmp {a b : Mem Byte} {t u : List Byte} (ha : CText a t) (hb : CText b u)
    (hlen : u.length ≤ t.length) : strncmpEq u.length a b = .ok (decide (u <+: t)) := by
  obtain ⟨h0, r, rfl⟩ := ha
  obtain ⟨h1, r', rfl⟩ := hb
  induction u generalizing t with
  | nil => simp [strncmpEq]
  | cons d u ih =>
    simp only [List.mem_cons, not_or] at h1
    cases t with
    | nil => simp at hlen
    | cons c t =>
      simp only [List.mem_cons, not_or] at h0
      have hc : c ≠ 0 := fun h => h0.1 h.symm
      by_cases hcd : c = d
      · subst hcd
        simp only [List.length_cons, Nat.add_le_add_iff_right] at hlen
        simp [strncmpEq, hc, ih hlen h0.2 h1.2, List.cons_prefix_cons]
      · have : ¬ (d = c ∧ u <+: t) := fun h => hcd h.1.symm
        simp [strncmpEq, hcd, List.cons_prefix_cons, this]

theorem pushFrom_holds {m : Mem Byte} {t : List Byte} (hm : CText m t) (n : Nat) :
    ∀ (i : Nat) (v : Str) (l : List Byte), Vec.Holds v l → i + n ≤ t.length →
      ∃ w, pushFrom m n i v = .ok w ∧ Vec.Holds w (l ++ (t.drop i).take n) := by
  induction n with
  | zero => intro i v l h _; exact ⟨v, rfl, by simpa using h⟩
  | succ n ih =>
    intro i v l h hle
    have hi : i < t.length := by omega
    obtain ⟨w, hw, hh⟩ := Vec.push_holds h t[i]
    obtain ⟨x, hx, hxh⟩ := ih (i + 1) w _ hh (by omega)
    refine ⟨x, ?_, ?_⟩
    · simp only [pushFrom, hm.load hi, Res.ok_bind, hw, hx]
    · rw [List.drop_eq_getElem_cons hi, List.take_succ_cons]
      simpa using hxh

theorem text_of_push {v : Str} {t : List Byte} (h : Vec.Holds v t) (h0 : 0 ∉ t) :
    ∃ s, Vec.push v 0 = .ok s ∧ Text s t := by
  obtain ⟨s, hs, hh⟩ := Vec.push_holds h 0
  exact ⟨s, hs, hh, h0⟩

theorem CText.new {m : Mem Byte} {t : List Byte} (h : CText m t) :
    ∃ s, new m = .ok s ∧ Text s t := by
  obtain ⟨w, hw, hh⟩ := pushFrom_holds h t.length 0 Vec.new [] Vec.holds_new (by omega)
  simp only [List.nil_append, List.drop_zero, List.take_length] at hh
  obtain ⟨s, hs, ht⟩ := text_of_push hh h.1
  exact ⟨s, by simp only [Str.new, h.strlen, Res.ok_bind, hw, hs], ht⟩

theorem empty_text : Text empty [] := by
  refine ⟨⟨List.replicate 7 none, by rfl, rfl, rfl⟩, by simp⟩

theorem Text.chop {s : Str} {t : List Byte} (h : Text s t) : Vec.Holds (chop s) t := by
  have hl := h.1.choose_spec.2.1
  have := Vec.dropLast_holds h.1
  unfold Str.chop
  rw [if_pos (by rw [hl]; simp)]
  simpa using this

theorem appendLoop_holds {o : Str} {m : List Byte} (ho : Vec.Holds o m) (n : Nat) :
    ∀ (i : Nat) (v : Str) (l : List Byte), Vec.Holds v l → i + n ≤ m.length →
      ∃ w, appendLoop o n i v = .ok w ∧ Vec.Holds w (l ++ (m.drop i).take n) := by
  induction n with
  | zero => intro i v l h _; exact ⟨v, rfl, by simpa using h⟩
  | succ n ih =>
    intro i v l h hle
    have hi : i < m.length := by omega
    obtain ⟨w, hw, hh⟩ := Vec.push_holds h m[i]
    obtain ⟨x, hx, hxh⟩ := ih (i + 1) w _ hh (by omega)
    refine ⟨x, ?_, ?_⟩
    · have hg := Vec.get_holds ho i
      rw [List.getElem?_eq_getElem hi] at hg
      simp only [appendLoop, hg, Res.ok_bind, hw, hx]
    · rw [List.drop_eq_getElem_cons hi, List.take_succ_cons]
      simpa using hxh

theorem Text.append {s o : Str} {t u : List Byte} (hs : Text s t) (ho : Text o u) :
    ∃ w, append s o = .ok w ∧ Text w (t ++ u) := by
  have hl := ho.1.choose_spec.2.1
  obtain ⟨w, hw, hh⟩ := appendLoop_holds ho.1 o.len 0 _ _ hs.chop (by omega)
  refine ⟨w, hw, ?_, ?_⟩
  · rw [List.drop_zero, List.take_of_length_le (by omega)] at hh
    simpa using hh
  · simp [hs.2, ho.2]

theorem Text.appendC {s : Str} {m : Mem Byte} {t u : List Byte} (hs : Text s t) (hm : CText m u) :
    ∃ w, appendC s m = .ok w ∧ Text w (t ++ u) := by
  obtain ⟨w, hw, hh⟩ := pushFrom_holds hm u.length 0 _ _ hs.chop (by omega)
  rw [List.drop_zero, List.take_length] at hh
  obtain ⟨x, hx, ht⟩ := text_of_push hh (by simp [hs.2, hm.1])
  exact ⟨x, by simp only [Str.appendC, hm.strlen, Res.ok_bind, hw, hx], ht⟩

theorem Text.add {s o : Str} {t u : List Byte} (hs : Text s t) (ho : Text o u) :
    ∃ w, add s o = .ok w ∧ Text w (t ++ u) := by
  obtain ⟨x, hx, hxt⟩ := hs.ctext.new
  obtain ⟨w, hw, ht⟩ := hxt.append ho
  exact ⟨w, by simp only [Str.add, hx, Res.ok_bind, hw], ht⟩

theorem Text.get {s : Str} {t : List Byte} (h : Text s t) {i : Nat} (hi : i < t.length) :
    Vec.get s i = .ok t[i] := by
  rw [Vec.get_holds h.1, List.getElem?_append_left hi, List.getElem?_eq_getElem hi]

theorem substringLoop_holds {s : Str} {t : List Byte} (h : Text s t) (hlt : t.length < 2 ^ 64)
    (start n : Nat) : ∀ (i : Nat) (v : Str) (l : List Byte), Vec.Holds v l →
      start + i + n ≤ t.length →
      ∃ w, substringLoop s start n i v = .ok w ∧
        Vec.Holds w (l ++ (t.drop (start + i)).take n) := by
  induction n with
  | zero => intro i v l h _; exact ⟨v, rfl, by simpa using h⟩
  | succ n ih =>
    intro i v l hv hle
    have hi : start + i < t.length := by omega
    obtain ⟨w, hw, hh⟩ := Vec.push_holds hv t[start + i]
    obtain ⟨x, hx, hxh⟩ := ih (i + 1) w _ hh (by omega)
    refine ⟨x, ?_, ?_⟩
    · simp only [substringLoop, Nat.mod_eq_of_lt (show start + i < 2 ^ 64 by omega), h.get hi,
        Res.ok_bind, hw, hx]
    · rw [List.drop_eq_getElem_cons hi, List.take_succ_cons]
      simpa [Nat.add_assoc] using hxh

theorem substringLoop_panics {s : Str} {t : List Byte} (h : Text s t)
    (hlt : t.length + 1 < 2 ^ 64) (start n : Nat) : ∀ (i : Nat) (v : Str) (l : List Byte),
      Vec.Holds v l → start + i < 2 ^ 64 → t.length + 1 < start + i + n → 0 < n →
      substringLoop s start n i v = .panic := by
  induction n with
  | zero => intro i v l _ _ _ h; omega
  | succ n ih =>
    intro i v l hv hm hgt _
    unfold substringLoop
    rw [Nat.mod_eq_of_lt hm, Vec.get_holds h.1]
    by_cases hi : start + i < t.length + 1
    · rw [List.getElem?_eq_getElem (by simpa using hi)]
      obtain ⟨w, hw, hh⟩ := Vec.push_holds hv ((t ++ [0])[start + i]'(by simpa using hi))
      simp only [Res.ok_bind, hw]
      exact ih (i + 1) w _ hh (by omega) (by omega) (by omega)
    · rw [List.getElem?_eq_none (by simp; omega)]
      rfl

theorem Text.substring {s : Str} {t : List Byte} (h : Text s t) (hlt : t.length < 2 ^ 63)
    {a n : Nat} (hle : a + n ≤ t.length) :
    ∃ w, substring s a n = .ok w ∧ Text w ((t.drop a).take n) := by
  obtain ⟨w, hw, hh⟩ := substringLoop_holds h (by omega) a n 0 Vec.new [] Vec.holds_new (by omega)
  obtain ⟨x, hx, ht⟩ := text_of_push hh
    (fun hm => h.2 (List.mem_of_mem_drop (List.mem_of_mem_take (by simpa using hm))))
  refine ⟨x, ?_, by simpa using ht⟩
  unfold Str.substring
  rw [h.length, Nat.mod_eq_of_lt (by omega), if_neg (by omega)]
  simp only [hw, Res.ok_bind, hx]

theorem Text.substring_panics {s : Str} {t : List Byte} (h : Text s t) (hlt : t.length < 2 ^ 63)
    {a n : Nat} (ha : a < 2 ^ 64) (hn : n < 2 ^ 64) (hgt : t.length < a + n) :
    Str.substring s a n = .panic := by
  unfold Str.substring
  rw [h.length]
  split
  · rfl
  · rename_i hc
    have hwrap : 2 ^ 64 ≤ a + n := by
      apply Classical.byContradiction
      intro hno
      rw [Nat.mod_eq_of_lt (by omega)] at hc
      omega
    rw [substringLoop_panics h (by omega) a n 0 Vec.new [] Vec.holds_new (by omega) (by omega)
      (by omega)]
    rfl

theorem findLoop_eq {s : Str} {t : List Byte} (h : Text s t) (c : Byte) (n : Nat) :
    ∀ i, i + n = t.length →
      findLoop s c n i = .ok (((t.drop i).findIdx? (· == c)).map (· + i)) := by
  induction n with
  | zero =>
    intro i hi
    have : t.drop i = [] := by rw [List.drop_eq_nil_iff]; omega
    simp [findLoop, this]
  | succ n ih =>
    intro i hi
    have hlt : i < t.length := by omega
    unfold findLoop
    rw [h.get hlt, Res.ok_bind, ih (i + 1) (by omega), List.drop_eq_getElem_cons hlt,
      List.findIdx?_cons]
    by_cases hc : t[i] = c
    · simp [hc]
    · have : (t[i] == c) = false := by simpa using hc
      simp only [hc, if_false, this, Bool.false_eq_true]
      cases (t.drop (i + 1)).findIdx? (· == c) with
      | none => rfl
      | some k => simp; omega

theorem Text.find {s : Str} {t : List Byte} (h : Text s t) (c : Byte) :
    find s c = .ok (t.findIdx? (· == c)) := by
  unfold Str.find
  rw [h.length, findLoop_eq h c _ 0 (by omega)]
  simp

theorem Text.contains {s : Str} {t : List Byte} (h : Text s t) (c : Byte) :
    contains s c = .ok (decide (c ∈ t)) := by
  unfold Str.contains
  rw [h.find, Res.ok_bind]
  congr 1
  rw [Bool.eq_iff_iff]
  simp

theorem Text.startsWith {s : Str} {t u : List Byte} {m : Mem Byte} (h : Text s t)
    (hm : CText m u) : startsWith s m = .ok (decide (u <+: t)) := by
  unfold Str.startsWith
  rw [hm.strlen, Res.ok_bind, h.length]
  split
  · rename_i hgt
    congr 1
    symm
    rw [decide_eq_false_iff_not]
    intro hp
    have := hp.length_le
    omega
  · exact h.ctext.strncmp hm (by omega)

theorem Text.endsWith {s : Str} {t u : List Byte} {m : Mem Byte} (h : Text s t)
    (hm : CText m u) (hlt : t.length < 2 ^ 31) : endsWith s m = .ok (decide (u <:+ t)) := by
  unfold Str.endsWith
  rw [hm.strlen, Res.ok_bind, h.length]
  split
  · rename_i hgt
    congr 1
    symm
    rw [decide_eq_false_iff_not]
    intro hp
    have := hp.length_le
    omega
  · rw [Nat.mod_eq_of_lt (by omega)]
    dsimp only
    rw [if_neg (by omega), (h.ctext.drop (by omega)).strcmp hm]
    congr 1
    rw [decide_eq_decide, List.suffix_iff_eq_drop]
    exact eq_comm

theorem Text.reserve {s : Str} {t : List Byte} (h : Text s t) (n : Nat) : Text (reserve s n) t :=
  ⟨(Vec.holds_growToFit h.1 (n + 1)).1, h.2⟩

/-! ### trim -/

theorem trimStart_eq {s : Str} {t : List Byte} (h : Text s t) (n : Nat) :
    ∀ i, i + n = t.length →
      trimStart s n i = .ok (t.length - ((t.drop i).dropWhile blank).length) ∧
      t.drop (t.length - ((t.drop i).dropWhile blank).length) = (t.drop i).dropWhile blank := by
  induction n with
  | zero =>
    intro i hi
    have : t.drop i = [] := by rw [List.drop_eq_nil_iff]; omega
    simp [trimStart, this]; omega
  | succ n ih =>
    intro i hi
    have hlt : i < t.length := by omega
    unfold trimStart
    rw [h.get hlt, Res.ok_bind, List.drop_eq_getElem_cons hlt, List.dropWhile_cons]
    by_cases hc : blank t[i] = true
    · rw [if_pos hc, if_pos hc]
      exact ih (i + 1) (by omega)
    · rw [if_neg hc, if_neg hc]
      have e : t.length - (t[i] :: t.drop (i + 1)).length = i := by simp; omega
      rw [e]
      exact ⟨rfl, List.drop_eq_getElem_cons hlt⟩

theorem dropWhile_append_of_not {α : Type} (p : α → Bool) (l : List α) (a : α) (h : p a = false) :
    (l ++ [a]).reverse.dropWhile p = (l ++ [a]).reverse := by
  simp [h]

theorem trimEnd_eq {s : Str} {t : List Byte} (h : Text s t) (start n : Nat) :
    start + n ≤ t.length →
      trimEnd s start n
        = .ok (start + (((t.drop start).take n).reverse.dropWhile blank).length) ∧
      (((t.drop start).take n).reverse.dropWhile blank).length ≤ n ∧
      (t.drop start).take (((t.drop start).take n).reverse.dropWhile blank).length
        = (((t.drop start).take n).reverse.dropWhile blank).reverse := by
  induction n with
  | zero => intro _; simp [trimEnd]
  | succ n ih =>
    intro hle
    have hlt : start + n < t.length := by omega
    have htake : (t.drop start).take (n + 1) = (t.drop start).take n ++ [t[start + n]] := by
      rw [List.take_add_one, List.getElem?_drop, List.getElem?_eq_getElem hlt]; rfl
    unfold trimEnd
    rw [h.get hlt, Res.ok_bind, htake, List.reverse_append, List.reverse_singleton,
      List.singleton_append, List.dropWhile_cons]
    by_cases hc : blank t[start + n] = true
    · rw [if_pos hc, if_pos hc]
      obtain ⟨a, b, c⟩ := ih (by omega)
      exact ⟨a, by omega, c⟩
    · rw [if_neg hc, if_neg hc]
      have hlen : (t[start + n] :: ((t.drop start).take n).reverse).length = n + 1 := by
        simp; omega
      rw [hlen]
      refine ⟨by rw [Nat.add_assoc], Nat.le_refl _, ?_⟩
      rw [htake]; simp

theorem Text.trim {s : Str} {t : List Byte} (h : Text s t) (hlt : t.length < 2 ^ 63) :
    ∃ w, trim s = .ok w ∧ Text w (Spec.trim t) := by
  obtain ⟨h1, h2⟩ := trimStart_eq h t.length 0 (by omega)
  simp only [List.drop_zero] at h1 h2
  have hle : (t.dropWhile blank).length ≤ t.length := (List.dropWhile_suffix _).length_le
  unfold Str.trim
  rw [h.length]
  simp only [h1, Res.ok_bind]
  split
  · rename_i he
    have : (t.dropWhile blank) = [] := by
      by_cases ht : t.length = 0
      · have : t = [] := List.length_eq_zero_iff.1 ht
        subst this; rfl
      · rw [← List.length_eq_zero_iff]; omega
    refine ⟨empty, new_nil, ?_⟩
    unfold Spec.trim
    rw [this]
    exact empty_text
  · rename_i hne
    generalize hst : t.length - (t.dropWhile blank).length = st at *
    obtain ⟨h3, h4, h5⟩ := trimEnd_eq h st (t.length - st) (by omega)
    have htk : (t.drop st).take (t.length - st) = t.drop st := by
      rw [List.take_of_length_le (by simp)]
    rw [htk] at h3 h4 h5
    simp only [h3, Res.ok_bind, Nat.add_sub_cancel_left]
    obtain ⟨w, hw, ht⟩ := h.substring hlt
      (a := st) (n := ((t.drop st).reverse.dropWhile blank).length) (by omega)
    refine ⟨w, hw, ?_⟩
    rw [h5, h2] at ht
    exact ht

/-! ### replace -/

theorem matchAt_eq {s : Str} {t u : List Byte} {m : Mem Byte} (h : Text s t) (hm : CText m u)
    (i n : Nat) : ∀ k, k + n = u.length → i + u.length ≤ t.length →
      matchAt s m i n k = .ok (decide (u.drop k <+: t.drop (i + k))) := by
  induction n with
  | zero =>
    intro k hk _
    have : u.drop k = [] := by rw [List.drop_eq_nil_iff]; omega
    simp [matchAt, this]
  | succ n ih =>
    intro k hk hle
    have h1 : i + k < t.length := by omega
    have h2 : k < u.length := by omega
    unfold matchAt
    rw [h.get h1, Res.ok_bind, hm.load h2, Res.ok_bind, ih (k + 1) (by omega) hle,
      List.drop_eq_getElem_cons h1, List.drop_eq_getElem_cons h2]
    simp only [List.cons_prefix_cons]
    by_cases hc : t[i + k] = u[k]
    · rw [if_neg (by simp [hc])]
      simp only [hc, true_and, Nat.add_assoc]
    · have : ¬ u[k] = t[i + k] := fun h => hc h.symm
      rw [if_pos hc]
      simp only [this, false_and, decide_false]

theorem isMatch_eq {s : Str} {t u : List Byte} {m : Mem Byte} (h : Text s t) (hm : CText m u)
    (i : Nat) (hi : i ≤ t.length) :
    isMatch s m u.length t.length i = .ok (decide (u <+: t.drop i)) := by
  unfold isMatch
  split
  · rename_i hle
    rw [matchAt_eq h hm i _ 0 (by omega) hle]; simp
  · rename_i hgt
    congr 1
    symm
    rw [decide_eq_false_iff_not]
    intro hp
    have := hp.length_le
    simp at this
    omega

/-- Replacement of the leftmost non-overlapping occurrences, as a relation. -/
inductive Spec.Replaced (target repl : List Byte) : List Byte → List Byte → Prop where
  | nil : Replaced target repl [] []
  | hit (t t' : List Byte) : Replaced target repl t t' →
      Replaced target repl (target ++ t) (repl ++ t')
  | miss (c : Byte) (t t' : List Byte) : ¬ target <+: c :: t → Replaced target repl t t' →
      Replaced target repl (c :: t) (c :: t')

theorem Spec.replace_replaced (target repl : List Byte) (hne : target ≠ []) (n : Nat) :
    ∀ t : List Byte, t.length ≤ n → Spec.Replaced target repl t (Spec.replace target repl n t) := by
  induction n with
  | zero =>
    intro t ht
    have : t = [] := List.length_eq_zero_iff.1 (by omega)
    subst this; exact .nil
  | succ n ih =>
    intro t ht
    cases t with
    | nil => exact .nil
    | cons c t =>
      unfold Spec.replace
      have hpos : 0 < target.length := List.length_pos_iff.2 hne
      split
      · rename_i hp
        rw [List.isPrefixOf_iff_prefix] at hp
        obtain ⟨r, hr⟩ := hp
        rw [← hr, List.drop_left]
        refine .hit r _ (ih r ?_)
        have := congrArg List.length hr
        simp at this ht
        omega
      · rename_i hp
        rw [List.isPrefixOf_iff_prefix] at hp
        exact .miss c t _ hp (ih t (by simp at ht; omega))

theorem Spec.Replaced.unique {target repl : List Byte} (hne : target ≠ []) {t a b : List Byte}
    (ha : Spec.Replaced target repl t a) (hb : Spec.Replaced target repl t b) : a = b := by
  induction ha generalizing b with
  | nil =>
    generalize ht : ([] : List Byte) = t at hb
    cases hb with
    | nil => rfl
    | hit t t' h => exact absurd (List.append_eq_nil_iff.1 ht.symm).1 hne
    | miss c t t' hm h => cases ht
  | hit t t' h ih =>
    generalize ht : target ++ t = x at hb
    cases hb with
    | nil => exact absurd (List.append_eq_nil_iff.1 ht).1 hne
    | hit u u' h' =>
      have := List.append_cancel_left ht
      subst this
      rw [ih h']
    | miss c u u' hm h' => exact absurd ⟨t, ht⟩ hm
  | miss c t t' hm h ih =>
    generalize ht : c :: t = x at hb
    cases hb with
    | nil => cases ht
    | hit u u' h' => exact absurd ⟨u, ht.symm⟩ hm
    | miss d u u' hm' h' =>
      cases ht
      rw [ih h']

theorem replaceLoop_text {s : Str} {t u r : List Byte} {m p : Mem Byte} (h : Text s t)
    (hm : CText m u) (hp : CText p r) (hne : u ≠ []) (i : Nat) (acc : Str) (a : List Byte)
    (hacc : Text acc a) (hi : i ≤ t.length) :
    ∃ w t', replaceLoop s m p u.length t.length i acc = .ok w ∧ Text w (a ++ t') ∧
      Spec.Replaced u r (t.drop i) t' := by
  have hpos : 0 < u.length := List.length_pos_iff.2 hne
  induction hk : t.length - i using Nat.strongRecOn generalizing i acc a with
  | ind k ih =>
    unfold replaceLoop
    by_cases hlt : i < t.length
    · rw [if_pos hlt, isMatch_eq h hm i hi, Res.ok_bind]
      by_cases hpre : u <+: t.drop i
      · have hle : i + u.length ≤ t.length := by
          have := hpre.length_le
          simp at this; omega
        obtain ⟨x, hx, hxt⟩ := hp.new
        obtain ⟨y, hy, hyt⟩ := hacc.append hxt
        obtain ⟨w, t', hw, hwt, hr⟩ := ih (t.length - (i + u.length)) (by omega) (i + u.length) y _
          hyt hle rfl
        refine ⟨w, r ++ t', ?_, by simpa using hwt, ?_⟩
        · simp only [hpre, decide_true, hpos, and_self, dif_pos, hx, Res.ok_bind, hy, hw]
        · have hd : t.drop i = u ++ t.drop (i + u.length) := by
            obtain ⟨q, hq⟩ := hpre
            rw [← List.drop_drop, ← hq, List.drop_left]
          rw [hd]
          exact .hit _ _ hr
      · obtain ⟨v1, hv1, hh1⟩ := Vec.push_holds Vec.holds_new t[i]
        have hmem : t[i] ∈ t := List.getElem_mem hlt
        obtain ⟨v2, hv2, ht2⟩ := text_of_push (t := [t[i]]) (by simpa using hh1)
          (by
            simp only [List.mem_singleton]
            intro he
            exact h.2 (he ▸ hmem))
        obtain ⟨x, hx, hxt⟩ := ht2.ctext.new
        obtain ⟨y, hy, hyt⟩ := hacc.append hxt
        obtain ⟨w, t', hw, hwt, hr⟩ := ih (t.length - (i + 1)) (by omega) (i + 1) y _
          hyt (by omega) rfl
        refine ⟨w, t[i] :: t', ?_, by simpa using hwt, ?_⟩
        · simp only [hpre, decide_false, Bool.false_eq_true, false_and, dif_neg, h.get hlt,
            Res.ok_bind, hv1, hv2, hx, hy, hw, not_false_eq_true]
        · rw [List.drop_eq_getElem_cons hlt] at hpre ⊢
          exact .miss _ _ _ hpre hr
    · rw [if_neg hlt]
      have hd : t.drop i = [] := by rw [List.drop_eq_nil_iff]; omega
      exact ⟨acc, [], rfl, by simpa using hacc, by rw [hd]; exact .nil⟩

theorem Text.replace {s : Str} {t u r : List Byte} {m p : Mem Byte} (h : Text s t)
    (hm : CText m u) (hp : CText p r) (hlt : t.length < 2 ^ 63) :
    ∃ w, replace s m p = .ok w ∧
      Text w (if u = [] then t else Spec.replace u r t.length t) := by
  unfold Str.replace
  rw [hm.strlen, Res.ok_bind, h.length]
  by_cases hu : u = []
  · subst hu
    obtain ⟨w, hw, ht⟩ := h.substring hlt (a := 0) (n := t.length) (by omega)
    exact ⟨w, by simpa using hw, by simpa using ht⟩
  · have hpos : 0 < u.length := List.length_pos_iff.2 hu
    rw [if_neg (by omega), new_nil, Res.ok_bind]
    obtain ⟨w, t', hw, hwt, hr⟩ := replaceLoop_text h hm hp hu 0 empty [] empty_text (by omega)
    have := Spec.Replaced.unique hu hr (Spec.replace_replaced u r hu t.length t (Nat.le_refl _))
    exact ⟨w, hw, by simpa [hu, this] using hwt⟩

/-! ### histories -/

/-- Every variable represents its text. -/
def TextAll (s : Nat → Str) (t : Nat → List Byte) : Prop := ∀ i, Text (s i) (t i)

theorem TextAll.upd {s : Nat → Str} {t : Nat → List Byte} (h : TextAll s t) (i : Nat)
    {v : Str} {l : List Byte} (hv : Text v l) : TextAll (Vec.upd s i v) (Vec.upd t i l) := by
  intro k
  unfold Vec.upd
  split
  · exact hv
  · exact h k

theorem TextAll.upd_same {s : Nat → Str} {t : Nat → List Byte} (h : TextAll s t) (i : Nat)
    {v : Str} (hv : Text v (t i)) : TextAll (Vec.upd s i v) t := by
  intro k
  unfold Vec.upd
  split
  · rename_i hk; subst hk; exact hv
  · exact h k

theorem step_refines {s : Nat → Str} {t : Nat → List Byte} (h : TextAll s t) (op : Op)
    (hg : Spec.Guard1 t op) :
    match Spec.step t op with
    | none => step s op = .panic
    | some (t', r) => ∃ s', step s op = .ok (s', r) ∧ TextAll s' t' := by
  cases op with
  | new k bs =>
    obtain ⟨w, hw, ht⟩ := (cmem_ctext bs).new
    exact ⟨_, by simp only [step, hw, Res.ok_bind, Res.pure_eq], h.upd k ht⟩
  | append i j =>
    obtain ⟨w, hw, ht⟩ := (h i).append (h j)
    have hij : ¬ i = j := hg
    exact ⟨_, by simp only [step, hij, if_false, hw, Res.ok_bind, Res.pure_eq], h.upd i ht⟩
  | appendC i bs =>
    obtain ⟨w, hw, ht⟩ := (h i).appendC (cmem_ctext bs)
    exact ⟨_, by simp only [step, hw, Res.ok_bind, Res.pure_eq], h.upd i ht⟩
  | add i j k =>
    obtain ⟨w, hw, ht⟩ := (h i).add (h j)
    exact ⟨_, by simp only [step, hw, Res.ok_bind, Res.pure_eq], h.upd k ht⟩
  | eq i j =>
    exact ⟨s, by simp only [step, eq, (h i).ctext.strcmp (h j).ctext, Res.ok_bind, Res.pure_eq], h⟩
  | eqStr i bs =>
    exact ⟨s, by simp only [step, eqStr, (h i).ctext.strcmp (cmem_ctext bs), Res.ok_bind,
      Res.pure_eq], h⟩
  | length i => exact ⟨s, by simp only [step, (h i).length, Res.pure_eq], h⟩
  | text i => exact ⟨s, by simp only [step, (h i).ctext.readC, Res.ok_bind, Res.pure_eq], h⟩
  | reserve i n => exact ⟨_, rfl, h.upd_same i ((h i).reserve n)⟩
  | substring i a n k =>
    obtain ⟨ha, hn, hl⟩ := hg
    simp only [Spec.step]
    by_cases hle : a + n ≤ (t i).length
    · obtain ⟨w, hw, ht⟩ := (h i).substring (by omega) hle
      rw [if_pos hle]
      exact ⟨_, by simp only [step, hw, Res.ok_bind, Res.pure_eq], h.upd k ht⟩
    · rw [if_neg hle]
      simp only [step, (h i).substring_panics (by omega) ha hn (by omega), Res.panic_bind]
  | find i c => exact ⟨s, by simp only [step, (h i).find, Res.ok_bind, Res.pure_eq], h⟩
  | contains i c => exact ⟨s, by simp only [step, (h i).contains, Res.ok_bind, Res.pure_eq], h⟩
  | startsWith i bs =>
    exact ⟨s, by simp only [step, (h i).startsWith (cmem_ctext bs), Res.ok_bind, Res.pure_eq], h⟩
  | endsWith i bs =>
    exact ⟨s, by simp only [step, (h i).endsWith (cmem_ctext bs) hg, Res.ok_bind, Res.pure_eq], h⟩
  | trim i k =>
    have hl : (t i).length < 2 ^ 31 := hg
    obtain ⟨w, hw, ht⟩ := (h i).trim (by omega)
    exact ⟨_, by simp only [step, hw, Res.ok_bind, Res.pure_eq], h.upd k ht⟩
  | replace i u r k =>
    have hl : (t i).length < 2 ^ 31 := hg
    obtain ⟨w, hw, ht⟩ := (h i).replace (cmem_ctext u) (cmem_ctext r) (by omega)
    exact ⟨_, by simp only [step, hw, Res.ok_bind, Res.pure_eq], h.upd k ht⟩

theorem Spec.guard_cons {t : Nat → List Byte} {op : Op} {ops : List Op}
    (h : Spec.Guard t (op :: ops)) : Spec.Guard1 t op ∧
      ∀ t' r, Spec.step t op = some (t', r) → Spec.Guard t' ops := by
  refine ⟨h.1, ?_⟩
  intro t' r hs
  have := h.2
  rw [hs] at this
  exact this

theorem run_refines {s : Nat → Str} {t : Nat → List Byte} (h : TextAll s t) (ops : List Op)
    (hg : Spec.Guard t ops) : run s ops = Spec.run t ops := by
  induction ops generalizing s t with
  | nil => rfl
  | cons op ops ih =>
    obtain ⟨g1, g2⟩ := Spec.guard_cons hg
    have hst := step_refines h op g1
    unfold run Spec.run
    cases hs : Spec.step t op with
    | none => rw [hs] at hst; simp only at hst; simp only [hst, Res.panic_bind]
    | some p =>
      obtain ⟨t', r⟩ := p
      rw [hs] at hst
      obtain ⟨s', hs', hh⟩ := hst
      simp only [hs', Res.ok_bind, ih hh (g2 t' r hs)]
      cases Spec.run t' ops <;> rfl

/-! ### split -/

/-- Pairwise representation of a list of strings. -/
def Texts : List Str → List (List Byte) → Prop
  | [], [] => True
  | p :: ps, t :: ts => Text p t ∧ Texts ps ts
  | _, _ => False

theorem Texts.snoc {ps : List Str} {ts : List (List Byte)} (h : Texts ps ts) {p : Str}
    {t : List Byte} (hp : Text p t) : Texts (ps ++ [p]) (ts ++ [t]) := by
  induction ps generalizing ts with
  | nil =>
    cases ts with
    | nil => exact ⟨hp, trivial⟩
    | cons _ _ => exact h.elim
  | cons a ps ih =>
    cases ts with
    | nil => exact h.elim
    | cons b ts => exact ⟨h.1, ih h.2⟩

theorem splitLoop_texts {s : Str} {t : List Byte} (h : Text s t) (hlt : t.length < 2 ^ 63)
    (d : Byte) (n : Nat) : ∀ (i start : Nat) (ps : List Str) (ts : List (List Byte)),
      Texts ps ts → i + n = t.length → start ≤ i → d ∉ (t.drop start).take (i - start) →
      (∀ p ∈ ts, d ∉ p) → t = (ts.map (· ++ [d])).flatten ++ t.drop start →
      ∃ start' ps' ts', splitLoop s d n i start ps = .ok (start', ps') ∧ Texts ps' ts' ∧
        start' ≤ t.length ∧ d ∉ t.drop start' ∧ (∀ p ∈ ts', d ∉ p) ∧
        t = (ts'.map (· ++ [d])).flatten ++ t.drop start' := by
  induction n with
  | zero =>
    intro i start ps ts hps hi hst hd hts ht
    refine ⟨start, ps, ts, rfl, hps, by omega, ?_, hts, ht⟩
    rwa [List.take_of_length_le (by simp; omega)] at hd
  | succ n ih =>
    intro i start ps ts hps hi hst hd hts ht
    have hil : i < t.length := by omega
    have htake : (t.drop start).take (i + 1 - start)
        = (t.drop start).take (i - start) ++ [t[i]] := by
      have e : i + 1 - start = (i - start) + 1 := by omega
      have e2 : start + (i - start) = i := by omega
      rw [e, List.take_add_one, List.getElem?_drop, e2, List.getElem?_eq_getElem hil]; rfl
    unfold splitLoop
    rw [h.get hil, Res.ok_bind]
    by_cases hc : t[i] = d
    · rw [if_pos hc]
      obtain ⟨w, hw, hwt⟩ := h.substring hlt (a := start) (n := i - start) (by omega)
      simp only [hw, Res.ok_bind]
      refine ih (i + 1) (i + 1) _ (ts ++ [(t.drop start).take (i - start)])
        (hps.snoc hwt) (by omega) (by omega) (by simp) ?_ ?_
      · intro p hp
        rw [List.mem_append, List.mem_singleton] at hp
        rcases hp with hp | hp
        · exact hts p hp
        · subst hp; exact hd
      · have hsplit : t.drop start = (t.drop start).take (i - start) ++ d :: t.drop (i + 1) := by
          conv => lhs; rw [← List.take_append_drop (i - start) (t.drop start)]
          rw [List.drop_drop, show start + (i - start) = i by omega,
            List.drop_eq_getElem_cons hil, hc]
        conv => lhs; rw [ht, hsplit]
        simp
    · rw [if_neg hc]
      refine ih (i + 1) start ps ts hps (by omega) (by omega) ?_ hts ht
      rw [htake, List.mem_append, List.mem_singleton, not_or]
      exact ⟨hd, fun h => hc h.symm⟩

/-! ### UTF-8 -/

/-- UTF-8 encoding of a sequence of code points (Lean's own encoder). -/
def Spec.enc (cs : List Char) : List Byte := cs.flatMap String.utf8EncodeChar

theorem seqLen_two : ∀ x : Fin 32, seqLen (UInt8.ofNat (x.val + 0xc0)) = 2 := by decide +kernel
theorem seqLen_three : ∀ x : Fin 16, seqLen (UInt8.ofNat (x.val + 0xe0)) = 3 := by decide +kernel
theorem seqLen_four : ∀ x : Fin 8, seqLen (UInt8.ofNat (x.val + 0xf0)) = 4 := by decide +kernel
theorem seqLen_one : ∀ x : Fin 128, seqLen (UInt8.ofNat x.val) = 1 := by decide +kernel

theorem seqLen_encode (c : Char) : ∃ b bs, String.utf8EncodeChar c = b :: bs ∧
    seqLen b = (String.utf8EncodeChar c).length := by
  unfold String.utf8EncodeChar
  dsimp only
  split
  · rename_i h
    exact ⟨_, _, rfl, seqLen_one ⟨c.val.toNat, by omega⟩⟩
  · split
    · exact ⟨_, _, rfl, seqLen_two ⟨_, Nat.mod_lt _ (by omega)⟩⟩
    · split
      · exact ⟨_, _, rfl, seqLen_three ⟨_, Nat.mod_lt _ (by omega)⟩⟩
      · exact ⟨_, _, rfl, seqLen_four ⟨_, Nat.mod_lt _ (by omega)⟩⟩

theorem enc_cons (c : Char) (cs : List Char) :
    Spec.enc (c :: cs) = String.utf8EncodeChar c ++ Spec.enc cs := by
  simp [Spec.enc]

theorem enc_append (a b : List Char) : Spec.enc (a ++ b) = Spec.enc a ++ Spec.enc b := by
  simp [Spec.enc]

/-- At a character boundary the byte read tells the length of the character there. -/
theorem get_boundary {s : Str} {pre post : List Char} {c : Char}
    (h : Text s (Spec.enc (pre ++ c :: post))) :
    ∃ b, Vec.get s (Spec.enc pre).length = .ok b ∧
      seqLen b = (String.utf8EncodeChar c).length ∧
      (Spec.enc pre).length < (Spec.enc (pre ++ c :: post)).length := by
  obtain ⟨b, bs, he, hl⟩ := seqLen_encode c
  have hlt : (Spec.enc pre).length < (Spec.enc (pre ++ c :: post)).length := by
    rw [enc_append, enc_cons, he]; simp
  refine ⟨b, ?_, hl, hlt⟩
  rw [Vec.get_holds h.1, List.getElem?_append_left hlt, enc_append, enc_cons, he,
    List.getElem?_append_right (by omega)]
  simp

theorem boundary_snoc (pre : List Char) (c : Char) :
    (Spec.enc pre).length + (String.utf8EncodeChar c).length = (Spec.enc (pre ++ [c])).length := by
  rw [enc_append, enc_cons]; simp [Spec.enc]

theorem utf8LenLoop_eq {s : Str} (cs : List Char) (h : Text s (Spec.enc cs)) (post : List Char) :
    ∀ (pre : List Char) (n : Nat), cs = pre ++ post →
      utf8LenLoop s (Spec.enc cs).length (Spec.enc pre).length n = .ok (n + post.length) := by
  induction post with
  | nil =>
    intro pre n hcs
    rw [List.append_nil] at hcs; subst hcs
    unfold utf8LenLoop
    simp
  | cons c post ih =>
    intro pre n hcs
    subst hcs
    obtain ⟨b, hb, hl, hlt⟩ := get_boundary h
    unfold utf8LenLoop
    rw [if_pos hlt, hb, Res.ok_bind]
    dsimp only
    rw [hl, boundary_snoc]
    rw [ih (pre ++ [c]) (n + 1) (by simp)]
    simp; omega

theorem utf8AtLoop_eq {s : Str} (cs : List Char) (h : Text s (Spec.enc cs))
    (hlt : (Spec.enc cs).length < 2 ^ 63) (idx : Nat) (post : List Char) :
    ∀ (pre : List Char), cs = pre ++ post → pre.length ≤ idx →
      ∃ w, utf8AtLoop s idx (Spec.enc cs).length (Spec.enc pre).length pre.length = .ok w ∧
        Text w (Spec.enc (cs[idx]?.toList)) := by
  induction post with
  | nil =>
    intro pre hcs hle
    rw [List.append_nil] at hcs; subst hcs
    unfold utf8AtLoop
    refine ⟨empty, ?_, ?_⟩
    · rw [if_neg (by omega)]; exact new_nil
    · rw [List.getElem?_eq_none hle]; exact empty_text
  | cons c post ih =>
    intro pre hcs hle
    subst hcs
    obtain ⟨b, hb, hl, hbl⟩ := get_boundary h
    unfold utf8AtLoop
    rw [if_pos hbl, hb, Res.ok_bind]
    dsimp only
    rw [hl]
    by_cases hi : pre.length = idx
    · simp only [hi, if_true]
      obtain ⟨w, hw, ht⟩ := h.substring hlt (a := (Spec.enc pre).length)
        (n := (String.utf8EncodeChar c).length) (by
          rw [enc_append, enc_cons]; simp)
      refine ⟨w, hw, ?_⟩
      have e : (pre ++ c :: post)[idx]? = some c := by
        rw [List.getElem?_append_right (by omega), hi]; simp
      rw [e]
      have e2 : ((Spec.enc (pre ++ c :: post)).drop (Spec.enc pre).length).take
          (String.utf8EncodeChar c).length = String.utf8EncodeChar c := by
        rw [enc_append, List.drop_left, enc_cons, List.take_left]
      rw [e2] at ht
      simpa [Spec.enc] using ht
    · simp only [hi, if_false]
      obtain ⟨w, hw, ht⟩ := ih (pre ++ [c]) (by simp) (by simp; omega)
      rw [boundary_snoc]
      refine ⟨w, ?_, ht⟩
      simpa using hw

theorem utf8SubstrLoop_collect {s : Str} (cs : List Char) (h : Text s (Spec.enc cs))
    (start num : Nat) (A : List Char) (post : List Char) :
    ∀ (B : List Char), cs = A ++ B ++ post → B.length ≤ num →
      utf8SubstrLoop s start num (Spec.enc cs).length (Spec.enc (A ++ B)).length B.length true
          (Spec.enc A).length (Spec.enc B).length
        = .ok (true, (Spec.enc A).length, (Spec.enc ((B ++ post).take num)).length) := by
  induction post with
  | nil =>
    intro B hcs hle
    rw [List.append_nil] at hcs; subst hcs
    unfold utf8SubstrLoop
    rw [if_neg (by omega), List.append_nil, List.take_of_length_le hle]
  | cons c post ih =>
    intro B hcs hle
    subst hcs
    obtain ⟨b, hb, hl, hbl⟩ := get_boundary h
    unfold utf8SubstrLoop
    rw [if_pos hbl]
    simp only [Bool.not_true, Bool.false_and, Bool.false_eq_true, if_false]
    by_cases hn : B.length < num
    · rw [if_pos hn, hb, Res.ok_bind]
      rw [hl, boundary_snoc, boundary_snoc]
      have := ih (B ++ [c]) (by simp) (by simp; omega)
      simp only [List.append_assoc, List.cons_append, List.nil_append, List.length_append,
        List.length_cons, List.length_nil, Nat.zero_add] at this ⊢
      exact this
    · rw [if_neg hn]
      have : (B ++ c :: post).take num = B := by
        rw [List.take_append_of_le_length (by omega), List.take_of_length_le (by omega)]
      rw [this]

theorem utf8SubstrLoop_seek {s : Str} (cs : List Char) (h : Text s (Spec.enc cs))
    (start num : Nat) (hnum : 0 < num) (post : List Char) :
    ∀ (pre : List Char), cs = pre ++ post → pre.length ≤ start →
      utf8SubstrLoop s start num (Spec.enc cs).length (Spec.enc pre).length pre.length false 0 0
        = if start < cs.length then
            .ok (true, (Spec.enc (cs.take start)).length,
              (Spec.enc ((cs.drop start).take num)).length)
          else .ok (false, 0, 0) := by
  induction post with
  | nil =>
    intro pre hcs hle
    rw [List.append_nil] at hcs; subst hcs
    unfold utf8SubstrLoop
    rw [if_neg (by omega), if_neg (by omega)]
  | cons c post ih =>
    intro pre hcs hle
    subst hcs
    obtain ⟨b, hb, hl, hbl⟩ := get_boundary h
    by_cases hi : pre.length = start
    · have hstart : start < (pre ++ c :: post).length := by simp; omega
      have := utf8SubstrLoop_collect _ h start num pre (c :: post) [] (by simp) (by simp)
      rw [if_pos hstart, ← hi, List.take_left, List.drop_left]
      simp only [List.append_nil, List.length_nil, List.nil_append,
        show (Spec.enc []).length = 0 from rfl] at this
      rw [← hi] at this
      rw [← this]
      conv => lhs; unfold utf8SubstrLoop
      conv => rhs; unfold utf8SubstrLoop
      rw [if_pos hbl, if_pos hbl]
      simp
    · unfold utf8SubstrLoop
      rw [if_pos hbl]
      simp only [Bool.not_false, Bool.true_and, ne_eq, hi, not_false_eq_true, decide_true, if_true]
      rw [hb, Res.ok_bind]
      rw [hl, boundary_snoc]
      have := ih (pre ++ [c]) (by simp) (by simp; omega)
      rw [List.length_append, List.length_singleton] at this
      exact this

end Verif.Str
