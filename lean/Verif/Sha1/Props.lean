import Verif.Sha1.Lemmas

/-! # Properties of SHA-1 (C15) -/

namespace Verif.Sha1
open Verif

/-- **C15.** Feeding a message of less than 2^61 bytes in any sequence of pieces (empty pieces and
pieces of any size included) and finishing returns the FIPS 180-4 digest of the concatenation,
without any out-of-range or uninitialised access, and the padding loops end. -/
theorem sha1_pieces (ds : List (List Byte)) (hlen : ds.flatten.length < 2 ^ 61) :
    ∃ s, updates new ds = .ok s ∧
      ∀ fuel, 64 ≤ fuel → final fuel s = .ok (some (Spec.sha1 ds.flatten)) := by
  obtain ⟨s, hs, hr⟩ := updates_rep ds new_rep
  rw [List.nil_append] at hr
  exact ⟨s, hs, fun fuel hf => final_rep hr hlen fuel hf⟩

/-- **C15.** `Sha1::hash` returns the FIPS 180-4 digest. -/
theorem sha1_hash (m : List Byte) (hlen : m.length < 2 ^ 61) (fuel : Nat) (hf : 64 ≤ fuel) :
    hash fuel m = .ok (some (Spec.sha1 m)) := by
  obtain ⟨s, hs, hr⟩ := update_rep new_rep m
  rw [List.nil_append] at hr
  unfold hash
  rw [hs, Res.ok_bind]
  exact final_rep hr hlen fuel hf

/-- **C15.** The digest has 20 bytes. -/
theorem sha1_length (m : List Byte) : (Spec.sha1 m).length = 20 := by
  simp [Spec.sha1, Spec.be]

/-- Non-vacuity: the digest of "abc" (FIPS 180 test vector). -/
example : hash 64 [97, 98, 99] = .ok (some [0xa9, 0x99, 0x3e, 0x36, 0x47, 0x06, 0x81, 0x6a, 0xba,
    0x3e, 0x25, 0x71, 0x78, 0x50, 0xc2, 0x6c, 0x9c, 0xd0, 0xd8, 0x9d]) := by decide +kernel

end Verif.Sha1
