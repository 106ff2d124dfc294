import Verif.WebSocket.Model
import Verif.Str.Lemmas

/-! # Properties of WebSocket frames (C18) -/

namespace Verif.WebSocket
open Verif Verif.Str

/-! ## reading exactly n bytes, however they are segmented -/

/-- every segment carries at least one byte -/
def Segs (s : Stream) : Prop := ∀ x ∈ s, x ≠ []

theorem readExact_eq : ∀ (f need : Nat) (s : Stream), need ≤ f → Segs s →
    need ≤ s.flatten.length →
    ∃ s', readExact f need s = some (s.flatten.take need, s') ∧ s'.flatten = s.flatten.drop need ∧
      Segs s'
  | f, 0, s, _, hs, _ => ⟨s, by cases f <;> simp [readExact], by simp, hs⟩
  | 0, need + 1, s, h, _, _ => by omega
  | f + 1, need + 1, s, hf, hs, hl => by
      cases s with
      | nil => simp at hl
      | cons x ss =>
          have hx : x ≠ [] := hs x (by simp)
          have hxl : 0 < x.length := List.length_pos_iff.2 hx
          have hss : Segs ss := fun y hy => hs y (by simp [hy])
          have hne : ¬ (x.take (need + 1)).length = 0 := by
            rw [List.length_take]; omega
          unfold readExact
          have hrd : read (need + 1) (x :: ss)
              = (x.take (need + 1), if x.length ≤ need + 1 then ss else x.drop (need + 1) :: ss) := rfl
          rw [hrd]
          dsimp only
          rw [if_neg hne]
          by_cases hle : x.length ≤ need + 1
          · rw [if_pos hle, List.take_of_length_le hle]
            simp only [List.flatten_cons, List.length_append] at hl
            obtain ⟨s', hr, hfl, hs'⟩ := readExact_eq f (need + 1 - x.length) ss (by omega) hss
              (by omega)
            refine ⟨s', ?_, ?_, hs'⟩
            · rw [hr]; simp only [List.flatten_cons]
              rw [List.take_append, List.take_of_length_le hle]
            · rw [hfl, List.flatten_cons, List.drop_append, List.drop_of_length_le hle]; simp
          · rw [if_neg hle]
            have htl : (x.take (need + 1)).length = need + 1 := by rw [List.length_take]; omega
            rw [htl, Nat.sub_self]
            refine ⟨x.drop (need + 1) :: ss, ?_, ?_, ?_⟩
            · have : readExact f 0 (x.drop (need + 1) :: ss) = some ([], x.drop (need + 1) :: ss) := by
                cases f <;> simp [readExact]
              rw [this]
              simp only [List.append_nil, List.flatten_cons]
              rw [List.take_append_of_le_length (by omega)]
            · rw [List.flatten_cons, List.flatten_cons, List.drop_append_of_le_length (by omega)]
            · intro y hy
              simp only [List.mem_cons] at hy
              rcases hy with rfl | hy
              · intro h0
                have := List.length_drop (i := need + 1) (l := x)
                rw [h0] at this; simp at this; omega
              · exact hss y hy

/-! ## bytes and masks -/

theorem and_ff (n : Nat) : n &&& 0xFF = n % 256 := by
  rw [show 0xFF = 2 ^ 8 - 1 by rfl, Nat.and_two_pow_sub_one_eq_mod]
theorem and_0f (n : Nat) : n &&& 0x0F = n % 16 := by
  rw [show 0x0F = 2 ^ 4 - 1 by rfl, Nat.and_two_pow_sub_one_eq_mod]
theorem and_7f (n : Nat) : n &&& 0x7F = n % 128 := by
  rw [show 0x7F = 2 ^ 7 - 1 by rfl, Nat.and_two_pow_sub_one_eq_mod]

theorem and_80 (n : Nat) (h : n < 256) : n &&& 0x80 ≠ 0 ↔ 128 ≤ n := by
  have : ∀ n : Fin 256, n.val &&& 0x80 ≠ 0 ↔ 128 ≤ n.val := by decide +kernel
  exact this ⟨n, h⟩

theorem toNat_ofNat {n : Nat} (h : n < 256) : (UInt8.ofNat n).toNat = n := by
  simp [UInt8.toNat_ofNat']; omega

theorem bytesAt_eq {m : Mem Byte} {t : List Byte} (h : CText m t) :
    ∀ (n i : Nat), i + n ≤ t.length → bytesAt m i n = .ok ((t.drop i).take n)
  | 0, _, _ => by simp [bytesAt]
  | n + 1, i, hn => by
      have hi : i < t.length := by omega
      rw [bytesAt, h.load hi, Res.ok_bind, bytesAt_eq h n (i + 1) (by omega), Res.ok_bind,
        List.drop_eq_getElem_cons hi, List.take_succ_cons]

/-! ## send -/

theorem be8 (n : Nat) (h : n < 2 ^ 64) :
    Spec.be ((List.range 8).map fun i => UInt8.ofNat ((n >>> ((7 - i) * 8)) &&& 0xFF)) = n := by
  have e : ∀ k, (UInt8.ofNat ((n >>> k) &&& 0xFF)).toNat = n / 2 ^ k % 256 := by
    intro k
    rw [and_ff, Nat.shiftRight_eq_div_pow, toNat_ofNat (by omega)]
  simp only [Spec.be, show List.range 8 = [0, 1, 2, 3, 4, 5, 6, 7] from rfl, List.map_cons,
    List.map_nil, List.foldl_cons, List.foldl_nil, e]
  simp only [show (7 - 0) * 8 = 56 from rfl, show (7 - 1) * 8 = 48 from rfl,
    show (7 - 2) * 8 = 40 from rfl, show (7 - 3) * 8 = 32 from rfl, show (7 - 4) * 8 = 24 from rfl,
    show (7 - 5) * 8 = 16 from rfl, show (7 - 6) * 8 = 8 from rfl, show (7 - 7) * 8 = 0 from rfl]
  omega

theorem header_length (n : Nat) :
    (header n).length = if n ≤ 125 then 2 else if n ≤ 65535 then 4 else 10 := by
  unfold header
  split
  · rfl
  · split
    · rfl
    · simp

theorem header_decode (t rest : List Byte) (hlen : t.length < 2 ^ 64) :
    Spec.decode (header t.length ++ t ++ rest) = some (⟨true, 1, none, t⟩, rest) := by
  unfold header
  split
  · rename_i h
    have e : (UInt8.ofNat t.length).toNat = t.length := toNat_ofNat (by omega)
    have e1 : t.length % 128 = t.length := Nat.mod_eq_of_lt (by omega)
    have h2 : t.length < 126 := by omega
    have h3 : ¬ 128 ≤ t.length := by omega
    simp [Spec.decode, e, e1, Spec.extLen, h2, h3, show (129 : Byte).toNat = 129 from rfl]
  · split
    · rename_i h1 h
      have e1 : (UInt8.ofNat ((t.length >>> 8) &&& 0xFF)).toNat = t.length / 256 := by
        rw [and_ff, Nat.shiftRight_eq_div_pow, toNat_ofNat (by omega)]; omega
      have e2 : (UInt8.ofNat (t.length &&& 0xFF)).toNat = t.length % 256 := by
        rw [and_ff, toNat_ofNat (by omega)]
      have e3 : 256 * (t.length / 256) + t.length % 256 = t.length := by omega
      generalize UInt8.ofNat ((t.length >>> 8) &&& 0xFF) = x at *
      generalize UInt8.ofNat (t.length &&& 0xFF) = y at *
      simp [Spec.decode, Spec.extLen, show (129 : Byte).toNat = 129 from rfl,
        show (126 : Byte).toNat = 126 from rfl, Spec.be, e1, e2, e3]
    · have hb := be8 t.length hlen
      generalize hg : ((List.range 8).map fun i => UInt8.ofNat ((t.length >>> ((7 - i) * 8)) &&& 0xFF))
        = l at hb
      have hl : l.length = 8 := by rw [← hg]; simp
      have htk : List.take 8 (l ++ (t ++ rest)) = l := by rw [← hl, List.take_left]
      have hdr : List.drop 8 (l ++ (t ++ rest)) = t ++ rest := by rw [← hl, List.drop_left]
      simp [Spec.decode, Spec.extLen, show (129 : Byte).toNat = 129 from rfl,
        show (127 : Byte).toNat = 127 from rfl, hl, htk, hdr, hb]

/-- C18 (sending): when the kernel accepts whole buffers, the bytes written for a message are one
final unmasked text frame carrying exactly the message, with the shortest length form. -/
theorem ws_send_frame {s : Str} {t : List Byte} (h : Text s t) (hlen : t.length < 2 ^ 64)
    (accept : List Byte → Nat) (hacc : ∀ b, b.length ≤ accept b) :
    ∃ w, send accept s = .ok w ∧
      (∀ rest, Spec.decode (w ++ rest) = some (⟨true, 1, none, t⟩, rest)) ∧
      w.length = t.length + (if t.length < 126 then 2 else if t.length < 65536 then 4 else 10) := by
  refine ⟨header t.length ++ t, ?_, fun rest => header_decode t rest hlen, ?_⟩
  · unfold send
    simp only [h.length]
    rw [bytesAt_eq h.ctext _ 0 (by omega), Res.ok_bind]
    simp only [List.drop_zero, List.take_length]
    rw [List.take_of_length_le (hacc _), List.take_of_length_le (hacc _)]
  · rw [List.length_append, header_length]
    by_cases h1 : t.length ≤ 125
    · rw [if_pos h1, if_pos (by omega)]; omega
    · by_cases h2 : t.length ≤ 65535
      · rw [if_neg h1, if_pos h2, if_neg (by omega), if_pos (by omega)]; omega
      · rw [if_neg h1, if_neg h2, if_neg (by omega), if_neg (by omega)]; omega

/-- the hypotheses are met by a message of 200 bytes, which needs the 16-bit length form -/
example : ∃ s, Text s (List.replicate 200 120) ∧ (List.replicate 200 (120 : Byte)).length < 2 ^ 64 :=
  (CText.new (m := cmem (List.replicate 200 120)) (by
    have := cmem_ctext (List.replicate 200 120)
    rwa [show Str.Spec.lit (List.replicate 200 120) = List.replicate 200 120 from by decide +kernel]
      at this)).elim fun s hs => ⟨s, hs.2, by rw [List.length_replicate]; decide⟩

/-- C18 refuted without that assumption: a short write loses the rest of the frame and `send`
still reports success. -/
theorem ws_short_write_violated : ∃ s, Text s [104, 105] ∧
    send (fun b => min b.length 1) s = .ok [0x81, 104] := by
  obtain ⟨s, _, hs⟩ := (cmem_ctext [104, 105]).new
  have hs : Text s [104, 105] := hs
  refine ⟨s, hs, ?_⟩
  unfold send
  simp only [hs.length]
  rw [bytesAt_eq hs.ctext _ 0 (by simp)]
  rfl

/-! ## recv -/

theorem unmask_mask (key : List Byte) : ∀ (p : List Byte) (i : Nat),
    unmask key i (p.mapIdx fun j b => b ^^^ key.getD ((i + j) % 4) 0) = p
  | [], _ => rfl
  | b :: p, i => by
      rw [List.mapIdx_cons, unmask]
      have := unmask_mask key p (i + 1)
      have hf : (fun j b => b ^^^ key.getD ((i + (j + 1)) % 4) 0)
          = (fun j (b : Byte) => b ^^^ key.getD ((i + 1 + j) % 4) 0) := by
        funext j b; rw [show i + (j + 1) = i + 1 + j by omega]
      rw [hf, this]
      simp only [Nat.add_zero, List.cons.injEq, and_true]
      rw [UInt8.xor_assoc, UInt8.xor_self, UInt8.xor_zero]

theorem mask_length (k p : List Byte) : (Spec.mask k p).length = p.length := by
  simp [Spec.mask]

theorem readExact_prefix {s : Stream} (hs : Segs s) {a b : List Byte} (h : s.flatten = a ++ b) :
    ∃ s', readExact a.length a.length s = some (a, s') ∧ s'.flatten = b ∧ Segs s' := by
  obtain ⟨s', h1, h2, h3⟩ := readExact_eq a.length a.length s (Nat.le_refl _) hs (by rw [h]; simp)
  rw [h, List.take_left] at h1
  rw [h, List.drop_left] at h2
  exact ⟨s', h1, h2, h3⟩

theorem flag_code (m : Bool) (n : Nat) (h : n < 128) :
    (UInt8.ofNat ((if m then 128 else 0) + n)).toNat &&& 0x7F = n ∧
    ((UInt8.ofNat ((if m then 128 else 0) + n)).toNat &&& 0x80 ≠ 0 ↔ m = true) := by
  cases m
  · simp only [Bool.false_eq_true, if_false, Nat.zero_add, iff_false]
    rw [toNat_ofNat (by omega), and_80 _ (by omega), and_7f]; omega
  · simp only [if_true, iff_true]
    rw [toNat_ofNat (by omega), and_80 _ (by omega), and_7f]; omega

/-- header and body: what is left after the first two bytes -/
theorem recvLen_eq {s : Stream} (hs : Segs s) (m : Bool) (n : Nat) (hn : n < 65536)
    (rest : List Byte) (h : s.flatten = 129 :: Spec.lenBytes m n ++ rest) :
    ∃ (b2 : Byte) (s1 s2 : Stream), readExact 2 2 s = some ([129, b2], s1) ∧
      (b2.toNat &&& 0x80 ≠ 0 ↔ m = true) ∧ recvLen (b2.toNat &&& 0x7F) s1 = .ok (n, s2) ∧
      s2.flatten = rest ∧ Segs s2 := by
  unfold Spec.lenBytes at h
  by_cases h1 : n < 126
  · simp only [h1, if_true] at h
    obtain ⟨s1, hr, hf, hs1⟩ := readExact_prefix hs
      (a := [129, UInt8.ofNat ((if m then 128 else 0) + n)]) (b := rest) (by rw [h])
    obtain ⟨c1, c2⟩ := flag_code m n (by omega)
    refine ⟨_, s1, s1, hr, c2, ?_, hf, hs1⟩
    rw [c1]; simp only [recvLen]; rw [if_pos (by omega)]
  · simp only [h1, if_false, hn, if_true] at h
    obtain ⟨s1, hr, hf, hs1⟩ := readExact_prefix hs
      (a := [129, UInt8.ofNat ((if m then 128 else 0) + 126)])
      (b := [UInt8.ofNat (n / 256), UInt8.ofNat (n % 256)] ++ rest) (by rw [h]; rfl)
    obtain ⟨s2, hr2, hf2, hs2⟩ := readExact_prefix hs1
      (a := [UInt8.ofNat (n / 256), UInt8.ofNat (n % 256)]) (b := rest) hf
    obtain ⟨c1, c2⟩ := flag_code m 126 (by omega)
    refine ⟨_, s1, s2, hr, c2, ?_, hf2, hs2⟩
    rw [c1]
    unfold recvLen
    simp only [List.length_cons, List.length_nil] at hr2
    simp only [hr2]
    rw [toNat_ofNat (by omega), toNat_ofNat (by omega), ← Nat.shiftLeft_add_eq_or_of_lt (by omega),
      Nat.shiftLeft_eq]
    simp; omega

/-- C18 (receiving, partial): however the bytes of a text frame of at most 65535 payload bytes are
segmented, masked or not, `recv` returns exactly the payload and leaves the stream behind the
frame.  Missing: payloads containing NUL bytes (`ws_nul_violated`), longer frames
(`ws_huge_violated`), fragmented messages (`ws_fragment_violated`). -/
theorem ws_recv_frame_partial {s : Stream} (hs : Segs s) (key : Option (List Byte)) (t rest : List Byte)
    (hk : ∀ k, key = some k → k.length = 4) (h0 : 0 ∉ t) (hlen : t.length < 65536)
    (h : s.flatten = Spec.encode key t ++ rest) :
    ∃ w s', recv s = .ok (.ok w, s') ∧ Text w t ∧ s'.flatten = rest ∧ Segs s' := by
  have hnew : ∃ w, new (cmem t) = .ok w ∧ Text w t :=
    CText.new ⟨h0, [], rfl⟩
  obtain ⟨w, ew, tw⟩ := hnew
  cases key with
  | none =>
      obtain ⟨b2, s1, s2, h1, hm, h2, hf2, hs2⟩ := recvLen_eq hs false t.length hlen (t ++ rest)
        (by rw [h]; simp [Spec.encode])
      obtain ⟨s3, h3, hf3, hs3⟩ := readExact_prefix hs2 (a := t) (b := rest) hf2
      refine ⟨w, s3, ?_, tw, hf3, hs3⟩
      have hm' : ¬ (b2.toNat &&& 0x80 ≠ 0) := by rw [hm]; simp
      unfold recv
      simp only [h1, show (129 : Byte).toNat &&& 0x0F = 1 from rfl, h2, hm', if_false, h3, ew,
        Res.ok_bind]
      rfl
  | some k =>
      have hk4 := hk k rfl
      obtain ⟨b2, s1, s2, h1, hm, h2, hf2, hs2⟩ := recvLen_eq hs true t.length hlen
        (k ++ (Spec.mask k t ++ rest)) (by rw [h]; simp [Spec.encode])
      obtain ⟨s3, h3, hf3, hs3⟩ := readExact_prefix hs2 (a := k) (b := Spec.mask k t ++ rest) hf2
      obtain ⟨s4, h4, hf4, hs4⟩ := readExact_prefix hs3 (a := Spec.mask k t) (b := rest) hf3
      rw [hk4] at h3
      rw [mask_length] at h4
      refine ⟨w, s4, ?_, tw, hf4, hs4⟩
      have hm' : (b2.toNat &&& 0x80 ≠ 0) := by rw [hm]
      have hu : unmask k 0 (Spec.mask k t) = t := by
        have := unmask_mask k t 0
        simpa [Spec.mask] using this
      unfold recv
      simp only [h1, show (129 : Byte).toNat &&& 0x0F = 1 from rfl, h2, if_pos hm', h3, h4, hu, ew,
        Res.ok_bind]
      rfl

/-- pairwise representation -/
def TextsOf : List Str → List (List Byte) → Prop
  | [], [] => True
  | w :: ws, t :: ts => Text w t ∧ TextsOf ws ts
  | _, _ => False

/-- C18 (receiving, partial): a sequence of text frames is received as the sequence of its
payloads.  Missing as in `ws_recv_frame_partial`. -/
theorem ws_recv_all_partial : ∀ (frames : List (Option (List Byte) × List Byte)) (s : Stream)
    (rest : List Byte), Segs s →
    (∀ f ∈ frames, (∀ k, f.1 = some k → k.length = 4) ∧ 0 ∉ f.2 ∧ f.2.length < 65536) →
    s.flatten = (frames.map fun f => Spec.encode f.1 f.2).flatten ++ rest →
    ∃ ws s', recvAll frames.length s = .ok (some (ws, s')) ∧
      TextsOf ws (frames.map Prod.snd) ∧ s'.flatten = rest
  | [], s, rest, _, _, h => ⟨[], s, rfl, trivial, by simpa using h⟩
  | (key, t) :: frames, s, rest, hs, hf, h => by
      obtain ⟨h1, h2, h3⟩ := hf (key, t) (by simp)
      obtain ⟨w, s1, hr, tw, hfl, hs1⟩ := ws_recv_frame_partial hs key t
        ((frames.map fun f => Spec.encode f.1 f.2).flatten ++ rest) h1 h2 h3
        (by rw [h]; simp)
      obtain ⟨ws, s2, hr2, htw, hfl2⟩ := ws_recv_all_partial frames s1 rest hs1
        (fun f hm => hf f (by simp [hm])) hfl
      refine ⟨w :: ws, s2, ?_, ⟨tw, htw⟩, hfl2⟩
      simp only [List.length_cons, recvAll, hr, Res.ok_bind, hr2, Option.map_some]

/-- a masked frame arriving in three segments meets the hypotheses -/
example : Segs [[129], [130, 1, 2], [3, 4, 105, 107]] ∧
    ([[129], [130, 1, 2], [3, 4, 105, 107]] : Stream).flatten
      = Spec.encode (some [1, 2, 3, 4]) [104, 105] ++ [] := by
  constructor
  · intro x hx
    simp only [List.mem_cons, List.not_mem_nil, or_false] at hx
    rcases hx with rfl | rfl | rfl <;> simp
  · decide

/-- text read back from a received message -/
def textOf (r : Res (Except Err Str × Stream)) : Option (List Byte) :=
  match r with
  | .ok (.ok w, _) => (match readC w.buf with | .ok t => some t | _ => none)
  | _ => none

/-- C18 refuted: a text message with a NUL character is cut there -/
theorem ws_nul_violated : textOf (recv [Spec.encode none [97, 0, 98]]) = some [97] := by
  decide +kernel

/-- C18 refuted: the first fragment (FIN clear) is delivered as if it were the whole message -/
theorem ws_fragment_violated : textOf (recv [[0x01, 1, 97], [0x80, 1, 98]]) = some [97] := by
  decide +kernel

/-- C18 refuted: after a ping the payload of the ping is taken for the next frame -/
theorem ws_ping_desync_violated :
    ∃ s, recv [[0x89, 3, 0x81, 1, 120], Spec.encode none [104, 105]] = .ok (.error .notText, s) ∧
      textOf (recv s) = some [120] := by
  refine ⟨[[0x81, 1, 120], Spec.encode none [104, 105]], rfl, ?_⟩
  decide +kernel

/-- C18 refuted: what `send` writes for a message of 65536 bytes or more is refused by `recv` -/
theorem ws_huge_violated {s : Str} {t : List Byte} (h : Text s t) (hb : 65536 ≤ t.length)
    (accept : List Byte → Nat) (hacc : ∀ b, b.length ≤ accept b) :
    ∃ w s', send accept s = .ok w ∧ recv [w] = .ok (.error .huge, s') := by
  obtain ⟨b, hw⟩ : ∃ b, header t.length ++ t = 0x81 :: 127 :: b ∧ b ≠ [] := by
    unfold header
    rw [if_neg (by omega), if_neg (by omega)]
    exact ⟨_, rfl, by simp⟩
  refine ⟨header t.length ++ t, [b], ?_, ?_⟩
  · unfold send
    simp only [h.length]
    rw [bytesAt_eq h.ctext _ 0 (by omega), Res.ok_bind]
    simp only [List.drop_zero, List.take_length]
    rw [List.take_of_length_le (hacc _), List.take_of_length_le (hacc _)]
  · have hs : Segs [header t.length ++ t] := by
      intro x hx
      simp only [List.mem_singleton] at hx
      rw [hx, hw.1]; simp
    rw [hw.1]
    have : readExact 2 2 [0x81 :: 127 :: b] = some ([0x81, 127], [b]) := by
      have hbl : ¬ (b.length + 1 + 1 ≤ 2) := by
        have := List.length_pos_iff.2 hw.2; omega
      simp [readExact, read, hbl]
    unfold recv
    simp only [this]
    rfl

end Verif.WebSocket
