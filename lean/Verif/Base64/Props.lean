import Verif.Base64.Model
import Verif.Str.Lemmas

/-! # Properties of the Base64 encoder (C14) -/

namespace Verif.Base64
open Verif Verif.Str

theorem table_val : ∀ i : Fin 64, ∃ c, sym i.val = .ok c ∧ Spec.val c = some i.val ∧ c ≠ 0 ∧
    c ≠ 61 := by
  intro i
  have h : ∀ i : Fin 64, ∃ c ∈ table, sym i.val = .ok c ∧ Spec.val c = some i.val ∧ c ≠ 0 ∧
    c ≠ 61 := by decide +kernel
  obtain ⟨c, _, hc⟩ := h i
  exact ⟨c, hc⟩

theorem sym_ok (n : Nat) (h : n < 64) : ∃ c, sym n = .ok c ∧ Spec.val c = some n ∧ c ≠ 0 ∧
    c ≠ 61 := table_val ⟨n, h⟩

theorem six_eq (x k : Nat) : six x k = x / 2 ^ k % 64 := by
  unfold six
  rw [Nat.shiftRight_eq_div_pow, show 0x3F = 2 ^ 6 - 1 by rfl, Nat.and_two_pow_sub_one_eq_mod]

theorem low_eq (x : Nat) : x &&& 0x3F = x % 64 := by
  rw [show 0x3F = 2 ^ 6 - 1 by rfl, Nat.and_two_pow_sub_one_eq_mod]

theorem triple_eq (a b c : Nat) (hb : b < 256) (hc : c < 256) :
    (a <<< 16) ||| (b <<< 8) ||| c = a * 65536 + b * 256 + c := by
  have h1 : (a <<< 16) ||| (b <<< 8) = a <<< 16 + b <<< 8 := by
    rw [← Nat.shiftLeft_add_eq_or_of_lt]
    rw [Nat.shiftLeft_eq]; omega
  rw [h1, show a <<< 16 + b <<< 8 = (a * 256 + b) <<< 8 by
    simp only [Nat.shiftLeft_eq]; omega, ← Nat.shiftLeft_add_eq_or_of_lt (by omega)]
  simp only [Nat.shiftLeft_eq]; omega

theorem ofNat_toNat_eq (a : Byte) (n : Nat) (h : n = a.toNat) : UInt8.ofNat n = a := by
  subst h; simp

theorem group3_ok (a b c : Byte) : ∃ x1 x2 x3 x4, group3 a b c = .ok [x1, x2, x3, x4] ∧
    0 ∉ [x1, x2, x3, x4] ∧ x4 ≠ 61 ∧
    (∀ rest, Spec.decode (x1 :: x2 :: x3 :: x4 :: rest)
      = (Spec.decode rest).map (fun r => a :: b :: c :: r)) ∧
    (∀ x ∈ [x1, x2, x3, x4], (Spec.val x).isSome = true) := by
  have ha := a.toNat_lt
  have hb := b.toNat_lt
  have hc := c.toNat_lt
  have e := triple_eq a.toNat b.toNat c.toNat (by omega) (by omega)
  obtain ⟨x1, h1, v1, z1, _⟩ := sym_ok ((a.toNat * 65536 + b.toNat * 256 + c.toNat) / 2 ^ 18 % 64)
    (by omega)
  obtain ⟨x2, h2, v2, z2, _⟩ := sym_ok ((a.toNat * 65536 + b.toNat * 256 + c.toNat) / 2 ^ 12 % 64)
    (by omega)
  obtain ⟨x3, h3, v3, z3, _⟩ := sym_ok ((a.toNat * 65536 + b.toNat * 256 + c.toNat) / 2 ^ 6 % 64)
    (by omega)
  obtain ⟨x4, h4, v4, z4, p4⟩ := sym_ok ((a.toNat * 65536 + b.toNat * 256 + c.toNat) % 64)
    (by omega)
  refine ⟨x1, x2, x3, x4, ?_, ?_, p4, ?_, ?_⟩
  · simp only [group3, e, six_eq, low_eq, h1, h2, h3, h4, Res.ok_bind, Res.pure_eq]
  · simp [z1.symm, z2.symm, z3.symm, z4.symm]
  · intro rest
    conv => lhs; unfold Spec.decode
    rw [if_neg (fun h => p4 h.2)]
    simp only [v1, v2, v3, v4, Option.bind_eq_bind, Option.bind_some]
    rw [ofNat_toNat_eq a _ (by omega), ofNat_toNat_eq b _ (by omega), ofNat_toNat_eq c _ (by omega)]
    cases Spec.decode rest <;> rfl
  · simp [v1, v2, v3, v4]

theorem group2_ok (a b : Byte) : ∃ x1 x2 x3, group2 a b = .ok [x1, x2, x3, 61] ∧
    0 ∉ [x1, x2, x3, 61] ∧ Spec.decode [x1, x2, x3, 61] = some [a, b] ∧
    (∀ x ∈ [x1, x2, x3], (Spec.val x).isSome = true) := by
  have ha := a.toNat_lt
  have hb := b.toNat_lt
  have e := triple_eq a.toNat b.toNat 0 (by omega) (by omega)
  rw [Nat.or_zero, Nat.add_zero] at e
  obtain ⟨x1, h1, v1, z1, _⟩ := sym_ok ((a.toNat * 65536 + b.toNat * 256) / 2 ^ 18 % 64) (by omega)
  obtain ⟨x2, h2, v2, z2, _⟩ := sym_ok ((a.toNat * 65536 + b.toNat * 256) / 2 ^ 12 % 64) (by omega)
  obtain ⟨x3, h3, v3, z3, p3⟩ := sym_ok ((a.toNat * 65536 + b.toNat * 256) / 2 ^ 6 % 64) (by omega)
  refine ⟨x1, x2, x3, ?_, ?_, ?_, ?_⟩
  · simp only [group2, e, six_eq, h1, h2, h3, Res.ok_bind, Res.pure_eq]
  · simp [z1.symm, z2.symm, z3.symm]
  · unfold Spec.decode
    rw [if_pos ⟨rfl, rfl⟩, if_neg p3]
    simp only [v1, v2, v3, Option.bind_eq_bind, Option.bind_some]
    rw [if_pos (by omega), ofNat_toNat_eq a _ (by omega), ofNat_toNat_eq b _ (by omega)]
  · simp [v1, v2, v3]

theorem group1_ok (a : Byte) : ∃ x1 x2, group1 a = .ok [x1, x2, 61, 61] ∧
    0 ∉ [x1, x2, 61, 61] ∧ Spec.decode [x1, x2, 61, 61] = some [a] ∧
    (∀ x ∈ [x1, x2], (Spec.val x).isSome = true) := by
  have ha := a.toNat_lt
  have e : a.toNat <<< 16 = a.toNat * 65536 := by rw [Nat.shiftLeft_eq]
  obtain ⟨x1, h1, v1, z1, _⟩ := sym_ok ((a.toNat * 65536) / 2 ^ 18 % 64) (by omega)
  obtain ⟨x2, h2, v2, z2, _⟩ := sym_ok ((a.toNat * 65536) / 2 ^ 12 % 64) (by omega)
  refine ⟨x1, x2, ?_, ?_, ?_, ?_⟩
  · simp only [group1, e, six_eq, h1, h2, Res.ok_bind, Res.pure_eq]
  · simp [z1.symm, z2.symm]
  · unfold Spec.decode
    rw [if_pos ⟨rfl, rfl⟩, if_pos rfl]
    simp only [v1, v2, Option.bind_eq_bind, Option.bind_some]
    rw [if_pos (by omega), ofNat_toNat_eq a _ (by omega)]
  · simp [v1, v2]

theorem appendC_lit {out : Str} {acc bs : List Byte} (h : Text out acc) (h0 : 0 ∉ bs) :
    ∃ w, Str.appendC out (cmem bs) = .ok w ∧ Text w (acc ++ bs) :=
  h.appendC (show CText (cmem bs) bs from ⟨h0, [], rfl⟩)

theorem load_data (data : List Byte) (i : Nat) (h : i < data.length) :
    Mem.load (data.map some) i = .ok data[i] := by
  rw [Mem.load_ok_iff]; simp [h]

theorem loop_ok (data : List Byte) (i : Nat) (out : Str) (acc : List Byte) (h : Text out acc)
    (hi : i ≤ data.length) :
    ∃ w t, loop (data.map some) data.length i out = .ok w ∧ Text w (acc ++ t) ∧
      Spec.decode t = some (data.drop i) ∧ t.length = 4 * ((data.length - i + 2) / 3) ∧
      Spec.WellFormed t := by
  induction hk : data.length - i using Nat.strongRecOn generalizing i out acc with
  | ind k ih =>
    unfold loop
    by_cases h0 : i < data.length
    · rw [if_pos h0, load_data data i h0, Res.ok_bind]
      by_cases h1 : i + 1 < data.length
      · rw [if_pos h1, load_data data _ h1, Res.ok_bind]
        by_cases h2 : i + 2 < data.length
        · rw [if_pos h2, load_data data _ h2, Res.ok_bind]
          obtain ⟨x1, x2, x3, x4, hg, hz, _, hd, hv⟩ :=
            group3_ok data[i] data[i + 1] data[i + 2]
          obtain ⟨o, ho, hot⟩ := appendC_lit h hz
          obtain ⟨w, t, hw, hwt, hdt, hl, hwf⟩ := ih (data.length - (i + 3)) (by omega) (i + 3) o _
            hot (by omega) rfl
          refine ⟨w, [x1, x2, x3, x4] ++ t, ?_, by simpa using hwt, ?_, ?_, ?_⟩
          · simp only [hg, Res.ok_bind, ho, hw]
          · simp only [List.cons_append, List.nil_append, hd, hdt, Option.map_some]
            rw [List.drop_eq_getElem_cons h0, List.drop_eq_getElem_cons h1,
              List.drop_eq_getElem_cons h2]
          · simp [hl]; omega
          · obtain ⟨body, pad, rfl, hb, hp, hpl⟩ := hwf
            refine ⟨[x1, x2, x3, x4] ++ body, pad, by simp, ?_, hp, hpl⟩
            intro c hc
            rw [List.mem_append] at hc
            exact hc.elim (hv c) (hb c)
        · rw [if_neg h2]
          obtain ⟨x1, x2, x3, hg, hz, hd, hv⟩ := group2_ok data[i] data[i + 1]
          obtain ⟨o, ho, hot⟩ := appendC_lit h hz
          refine ⟨o, [x1, x2, x3, 61], ?_, hot, ?_, ?_, ?_⟩
          · simp only [hg, Res.ok_bind, ho]
            unfold loop
            rw [if_neg (by omega)]
          · rw [hd, List.drop_eq_getElem_cons h0, List.drop_eq_getElem_cons h1,
              List.drop_eq_nil_of_le (by omega)]
          · simp; omega
          · exact ⟨[x1, x2, x3], [61], rfl, hv, by simp, by simp⟩
      · rw [if_neg h1]
        obtain ⟨x1, x2, hg, hz, hd, hv⟩ := group1_ok data[i]
        obtain ⟨o, ho, hot⟩ := appendC_lit h hz
        refine ⟨o, [x1, x2, 61, 61], ?_, hot, ?_, ?_, ?_⟩
        · simp only [hg, Res.ok_bind, ho]
          unfold loop
          rw [if_neg (by omega)]
        · rw [hd, List.drop_eq_getElem_cons h0, List.drop_eq_nil_of_le (by omega)]
        · simp; omega
        · exact ⟨[x1, x2], [61, 61], rfl, hv, by simp, by simp⟩
    · rw [if_neg h0]
      refine ⟨out, [], rfl, by simpa using h, ?_, ?_, [], [], rfl, by simp, by simp, by simp⟩
      · rw [List.drop_eq_nil_of_le (by omega)]; rfl
      · simp; omega

/-- **C14.** Encoding any byte string returns a string whose text has length `4·⌈n/3⌉`, consists
of alphabet characters followed by at most two `=`, and decodes (RFC 4648) to the input. -/
theorem base64_round_trip (data : List Byte) :
    ∃ s t, encode (data.map some) data.length = .ok s ∧ readC s.buf = .ok t ∧
      Spec.decode t = some data ∧ t.length = 4 * ((data.length + 2) / 3) ∧ Spec.WellFormed t := by
  obtain ⟨w, t, hw, hwt, hd, hl, hf⟩ := loop_ok data 0
    (Str.reserve Str.empty (4 * ((data.length + 2) / 3))) [] (empty_text.reserve _) (by omega)
  refine ⟨w, t, ?_, by simpa using hwt.ctext.readC, by simpa using hd, by simpa using hl, hf⟩
  simp only [encode, new_nil, Res.ok_bind, hw]

/-- **C14.** Different inputs give different texts. -/
theorem base64_injective (a b : List Byte) (s s' : Str) (t : List Byte)
    (ha : encode (a.map some) a.length = .ok s) (hb : encode (b.map some) b.length = .ok s')
    (hs : readC s.buf = .ok t) (hs' : readC s'.buf = .ok t) : a = b := by
  obtain ⟨u, x, hu, hx, hd, _⟩ := base64_round_trip a
  obtain ⟨v, y, hv, hy, hd', _⟩ := base64_round_trip b
  rw [ha] at hu; cases hu
  rw [hb] at hv; cases hv
  rw [hs] at hx; cases hx
  rw [hs'] at hy; cases hy
  rw [hd] at hd'
  exact Option.some.inj hd'

/-- Non-vacuity: "Man!" is encoded as "TWFuIQ==". -/
example : (match encode ([77, 97, 110, 33].map some) 4 with
    | .ok s => readC s.buf | _ => .ub) = .ok [84, 87, 70, 117, 73, 81, 61, 61] := by decide +kernel
example : Spec.decode [84, 87, 70, 117, 73, 81, 61, 61] = some [77, 97, 110, 33] := by
  decide +kernel

end Verif.Base64
