import Verif.StdMem.Model

/-! # `std/mem.zc`: properties (C180) -/

namespace Verif.StdMem
open Verif Spec

theorem read_ok {h : Heap} {p : Nat × Nat} {n : Nat} (hv : Valid h p n) :
    ∃ d, read h (some p) n = .ok d ∧ d.length = n ∧ ∀ i, i < n → d[i]? = byteAt h (p.1, p.2 + i) := by
  obtain ⟨b, hb, hl⟩ := hv
  refine ⟨(b.drop p.2).take n, ?_, by simp; omega, ?_⟩
  · simp [read, block, hb, hl]
  · intro i hi
    simp [byteAt, hb, List.getElem?_take, hi, List.getElem?_drop]

theorem write_ok {h : Heap} {p : Nat × Nat} {d : List (Option Byte)} (hv : Valid h p d.length) :
    ∃ h', write h (some p) d = .ok h' ∧ (∀ q n, Valid h q n → Valid h' q n) ∧
      ∀ q, byteAt h' q = if Within q p d.length then d[q.2 - p.2]? else byteAt h q := by
  obtain ⟨b, hb, hl⟩ := hv
  have hk : p.1 < h.blocks.length := by
    rcases Nat.lt_or_ge p.1 h.blocks.length with h1 | h1
    · exact h1
    · rw [List.getElem?_eq_none h1] at hb; cases hb
  refine ⟨⟨h.blocks.set p.1 (some (b.take p.2 ++ d ++ b.drop (p.2 + d.length)))⟩, ?_, ?_, ?_⟩
  · simp [write, block, hb, hl]
  · intro q n ⟨c, hc, hn⟩
    by_cases e : q.1 = p.1
    · refine ⟨b.take p.2 ++ d ++ b.drop (p.2 + d.length), ?_, ?_⟩
      · simp [e, List.getElem?_set_self hk]
      · rw [e, hb] at hc
        cases hc
        simp only [List.length_append, List.length_take, List.length_drop]; omega
    · exact ⟨c, by simp only [List.getElem?_set_ne (Ne.symm e)]; exact hc, hn⟩
  · intro q
    by_cases e : q.1 = p.1
    · simp only [byteAt, Within, e, List.getElem?_set_self hk, hb, true_and]
      by_cases h1 : q.2 < p.2
      · rw [if_neg (by omega), List.append_assoc, List.getElem?_append_left (by simp; omega), List.getElem?_take,
          if_pos h1]
      · by_cases h2 : q.2 < p.2 + d.length
        · rw [if_pos (by omega), List.getElem?_append_left (by simp; omega), List.getElem?_append_right (by simp; omega)]
          congr 1
          simp; omega
        · rw [if_neg (by omega), List.getElem?_append_right (by simp; omega), List.getElem?_drop]
          congr 1
          simp; omega
    · have : h.blocks.set p.1 (some (b.take p.2 ++ d ++ b.drop (p.2 + d.length))) = _ := rfl
      simp only [byteAt, Within, e, false_and, if_false, List.getElem?_set_ne (Ne.symm e)]

/-! ## Allocation -/

theorem newBlock_ok (h : Heap) (b : List (Option Byte)) :
    ∃ h' p, newBlock true h b = (h', some p) ∧ Valid h' p b.length ∧ ¬ Valid h' p (b.length + 1) ∧
      (∀ i, i < b.length → byteAt h' (p.1, p.2 + i) = b[i]?) ∧
      (∀ i, byteAt h (p.1, i) = none) ∧ ∀ q, q.1 ≠ p.1 → byteAt h' q = byteAt h q := by
  have hb : (h.blocks ++ [some b])[h.blocks.length]? = some (some b) := by simp
  refine ⟨_, _, rfl, ⟨b, hb, by simp⟩, ?_, ?_, ?_, ?_⟩
  · rintro ⟨c, hc, hl⟩
    have e := hb.symm.trans hc
    cases e
    simp only [] at hl
    omega
  · intro i _
    simp [byteAt]
  · intro i
    simp [byteAt]
  · intro q hq
    simp only [byteAt]
    have hq' : q.1 ≠ h.blocks.length := hq
    rcases Nat.lt_or_ge q.1 h.blocks.length with h1 | h1
    · rw [List.getElem?_append_left h1]
    · rw [List.getElem?_eq_none (by simp; omega), List.getElem?_eq_none h1]

/-- C180: `zalloc<T>()` and `Box<T>::new()` give an object of their own, all of whose bytes are zero,
and change nothing else; without memory they give null and change nothing. -/
theorem zalloc_fresh (sz : Nat) (h : Heap) :
    (∃ h' p, zalloc sz true h = (h', some p) ∧ boxNew sz true h = (h', ⟨some p⟩) ∧ Valid h' p sz ∧
      (∀ i, i < sz → byteAt h' (p.1, p.2 + i) = some (some 0)) ∧
      (∀ i, byteAt h (p.1, i) = none) ∧ ∀ q, q.1 ≠ p.1 → byteAt h' q = byteAt h q) ∧
    zalloc sz false h = (h, none) ∧ boxNew sz false h = (h, ⟨none⟩) := by
  obtain ⟨h', p, e, hv, _, hz, hf, hk⟩ := newBlock_ok h (List.replicate sz (some 0))
  rw [List.length_replicate] at hv hz
  refine ⟨⟨h', p, e, ?_, hv, ?_, hf, hk⟩, rfl, rfl⟩
  · unfold boxNew
    rw [show zalloc sz true h = (h', some p) from e]
  · intro i hi
    rw [hz i hi, List.getElem?_replicate, if_pos hi]

/-- C180: `alloc<T>()` gives an object of its own, none of whose bytes is set, and changes nothing else;
without memory it gives null. -/
theorem alloc_fresh (sz : Nat) (h : Heap) :
    (∃ h' p, alloc sz true h = (h', some p) ∧ Valid h' p sz ∧
      (∀ i, i < sz → byteAt h' (p.1, p.2 + i) = some none) ∧
      (∀ i, byteAt h (p.1, i) = none) ∧ ∀ q, q.1 ≠ p.1 → byteAt h' q = byteAt h q) ∧
    alloc sz false h = (h, none) ∧ ∀ n, allocN sz n false h = (h, none) := by
  obtain ⟨h', p, e, hv, _, hz, hf, hk⟩ := newBlock_ok h (List.replicate sz none)
  rw [List.length_replicate] at hv hz
  refine ⟨⟨h', p, e, hv, ?_, hf, hk⟩, rfl, fun _ => rfl⟩
  intro i hi
  rw [hz i hi, List.getElem?_replicate, if_pos hi]

/-- C180 (partial): `alloc_n<T>(n)` gives room for `n` objects, in memory that nobody else has.
Missing: sizes of 2^64 bytes and more (`alloc_n_violated`). -/
theorem alloc_n_partial (sz n : Nat) (h : Heap) (hs : sz * n < 2 ^ 64) :
    ∃ h' p, allocN sz n true h = (h', some p) ∧ (∀ i, i < n → Valid h' (p.1, p.2 + i * sz) sz) ∧
      (∀ i, byteAt h (p.1, i) = none) ∧ ∀ q, q.1 ≠ p.1 → byteAt h' q = byteAt h q := by
  obtain ⟨h', p, e, ⟨b, hb, hl⟩, _, _, hf, hk⟩ := newBlock_ok h (List.replicate (szt (sz * n)) none)
  refine ⟨h', p, e, ?_, hf, hk⟩
  intro i hi
  refine ⟨b, hb, ?_⟩
  rw [List.length_replicate, szt, Nat.mod_eq_of_lt hs] at hl
  have : (i + 1) * sz ≤ n * sz := Nat.mul_le_mul_right _ hi
  rw [Nat.mul_comm sz n] at hl
  rw [Nat.add_mul, Nat.one_mul] at this
  simp only []
  omega

/-- C180 refuted: if the size of the `n` objects is 2^64 bytes or more, `alloc_n<T>(n)` succeeds with
a block that is too small: not all of the `n` objects are in it. -/
theorem alloc_n_violated (sz n : Nat) (h : Heap) (hs : 2 ^ 64 ≤ sz * n) :
    ∃ h' p, allocN sz n true h = (h', some p) ∧ ¬ ∀ i, i < n → Valid h' (p.1, p.2 + i * sz) sz := by
  obtain ⟨h', p, e, hv, hn, _⟩ := newBlock_ok h (List.replicate (szt (sz * n)) none)
  refine ⟨h', p, e, fun ha => hn ?_⟩
  rw [List.length_replicate]
  have hpos : 0 < n := by
    rcases Nat.eq_zero_or_pos n with rfl | h0
    · simp at hs
    · exact h0
  obtain ⟨b, hb, hl⟩ := ha (n - 1) (by omega)
  refine ⟨b, hb, ?_⟩
  have e1 : (n - 1) * sz + sz = n * sz := by
    rw [← Nat.succ_mul, Nat.succ_eq_add_one, Nat.sub_add_cancel hpos]
  have : szt (sz * n) < 2 ^ 64 := Nat.mod_lt _ (by decide)
  rw [Nat.mul_comm sz n] at hs this ⊢
  simp only [] at hl
  omega

example : (2 : Nat) ^ 64 ≤ 4 * (2 ^ 62 + 1) ∧ szt (4 * (2 ^ 62 + 1)) = 4 := by decide

/-! ## Clearing and copying -/

theorem small_valid {h : Heap} {p : Nat × Nat} {n : Nat} (hs : Small h) (hv : Valid h p n) : szt n = n := by
  obtain ⟨b, hb, hl⟩ := hv
  have := hs b (List.mem_of_getElem? hb)
  exact Nat.mod_eq_of_lt (by omega)

/-- C180: `mem_zero` of `count` objects that are there makes all their bytes zero and changes no other
byte. -/
theorem mem_zero_exact (sz count : Nat) (h : Heap) (p : Nat × Nat) (hs : Small h)
    (hv : Valid h p (sz * count)) :
    ∃ h', memZero sz h (some p) count = .ok h' ∧
      ∀ q, byteAt h' q = if Within q p (sz * count) then some (some 0) else byteAt h q := by
  have e := small_valid hs hv
  obtain ⟨h', hw, _, hq⟩ := write_ok (h := h) (p := p) (d := List.replicate (szt (sz * count)) (some 0))
    (by rw [List.length_replicate, e]; exact hv)
  refine ⟨h', hw, fun q => ?_⟩
  rw [hq, List.length_replicate, e]
  by_cases hw : Within q p (sz * count)
  · rw [if_pos hw, if_pos hw, List.getElem?_replicate, if_pos]
    have := hw.2
    omega
  · rw [if_neg hw, if_neg hw]

theorem apart_iff (p q : Nat × Nat) (n : Nat) (hn : 0 < n) :
    apart (some p) (some q) n = true ↔ ∀ r, ¬ (Within r p n ∧ Within r q n) := by
  simp only [apart, Bool.or_eq_true, bne_iff_ne, ne_eq, decide_eq_true_eq, Within]
  constructor
  · intro h r hr
    have := hr.1.1
    have := hr.2.1
    rcases h with h | h | h
    · omega
    · omega
    · omega
  · intro h
    by_cases e : p.1 = q.1
    · right
      rcases Nat.lt_or_ge p.2 q.2 with h1 | h1
      · left
        apply Decidable.byContradiction
        intro hc
        exact h (q.1, q.2) ⟨⟨e.symm, by simp only []; omega, by simp only []; omega⟩, ⟨rfl, Nat.le_refl _, by simp only []; omega⟩⟩
      · right
        apply Decidable.byContradiction
        intro hc
        exact h (p.1, p.2) ⟨⟨rfl, Nat.le_refl _, by simp only []; omega⟩, ⟨e, h1, by simp only []; omega⟩⟩
    · exact .inl e

/-- C180 (partial): `mem_copy` of `count` objects between ranges with no byte in common copies exactly
these bytes and changes no other.  Missing: ranges that overlap (`mem_copy_violated`). -/
theorem mem_copy_partial (sz count : Nat) (h : Heap) (dst src : Nat × Nat) (hs : Small h)
    (hd : Valid h dst (sz * count)) (hv : Valid h src (sz * count))
    (ha : ∀ r, ¬ (Within r dst (sz * count) ∧ Within r src (sz * count))) (h0 : 0 < sz * count) :
    ∃ h', memCopy sz h (some dst) (some src) count = .ok h' ∧
      ∀ q, byteAt h' q = if Within q dst (sz * count) then byteAt h (src.1, src.2 + (q.2 - dst.2)) else byteAt h q := by
  have e := small_valid hs hd
  obtain ⟨d, hr, hl, hg⟩ := read_ok hv
  obtain ⟨h', hw, _, hq⟩ := write_ok (h := h) (p := dst) (d := d) (by rw [hl]; exact hd)
  refine ⟨h', ?_, fun q => ?_⟩
  · simp only [memCopy, e, (apart_iff dst src _ h0).mpr ha, if_true, hr, Res.ok_bind, hw]
  · rw [hq, hl]
    by_cases hw : Within q dst (sz * count)
    · rw [if_pos hw, if_pos hw]
      exact hg _ (by have := hw.2; omega)
    · rw [if_neg hw, if_neg hw]

/-- C180 refuted: if the ranges share a byte the copy is undefined, even onto itself. -/
theorem mem_copy_violated (sz count : Nat) (h : Heap) (dst src r : Nat × Nat) (hs : Small h)
    (hd : Valid h dst (sz * count)) (h1 : Within r dst (sz * count)) (h2 : Within r src (sz * count)) :
    memCopy sz h (some dst) (some src) count = .ub := by
  have h0 : 0 < sz * count := by have := h1.2; omega
  have ha : ¬ apart (some dst) (some src) (sz * count) = true := fun ha =>
    (apart_iff dst src _ h0).mp ha r ⟨h1, h2⟩
  simp only [memCopy, small_valid hs hd, ha, Bool.false_eq_true, if_false]

/-- C180: `swap` exchanges the bytes of the two objects and changes no other byte, for objects that
are the same or have no byte in common, as the elements of an array. -/
theorem swap_exact (sz : Nat) (h : Heap) (a b : Nat × Nat) (ha : Valid h a sz) (hb : Valid h b sz)
    (hs : Separate a b sz) (h0 : 0 < sz) :
    ∃ h', swap sz h (some a) (some b) = .ok h' ∧
      ∀ q, byteAt h' q = if Within q a sz then byteAt h (b.1, b.2 + (q.2 - a.2))
        else if Within q b sz then byteAt h (a.1, a.2 + (q.2 - b.2)) else byteAt h q := by
  obtain ⟨da, ra, la, ga⟩ := read_ok ha
  obtain ⟨db, rb, lb, gb⟩ := read_ok hb
  obtain ⟨h1, w1, v1, q1⟩ := write_ok (h := h) (p := a) (d := db) (by rw [lb]; exact ha)
  obtain ⟨h2, w2, _, q2⟩ := write_ok (h := h1) (p := b) (d := da) (by rw [la]; exact v1 b sz hb)
  have hc : some a = some b ∨ apart (some a) (some b) sz = true := by
    rcases hs with e | e
    · exact .inl (by rw [e])
    · exact .inr ((apart_iff a b sz h0).mpr e)
  refine ⟨h2, ?_, fun q => ?_⟩
  · simp only [swap, ra, rb, Res.ok_bind, if_pos hc, w1, w2]
  · rw [q2, q1, la, lb]
    by_cases ia : Within q a sz
    · rw [if_pos ia, if_pos ia]
      by_cases ib : Within q b sz
      · rw [if_pos ib]
        rcases hs with e | e
        · subst e
          exact ga _ (by have := ib.2; omega)
        · exact absurd ⟨ia, ib⟩ (e q)
      · rw [if_neg ib]
        exact gb _ (by have := ia.2; omega)
    · rw [if_neg ia, if_neg ia]
      by_cases ib : Within q b sz
      · rw [if_pos ib, if_pos ib]
        exact ga _ (by have := ib.2; omega)
      · rw [if_neg ib, if_neg ib]

/-- The elements of an array are separate. -/
theorem elements_separate (p : Nat × Nat) (i j sz : Nat) :
    Separate (p.1, p.2 + i * sz) (p.1, p.2 + j * sz) sz := by
  rcases Nat.lt_trichotomy i j with h | h | h
  · right
    rintro r ⟨h1, h2⟩
    have := Nat.mul_le_mul_right sz (show i + 1 ≤ j from h)
    rw [Nat.add_mul, Nat.one_mul] at this
    simp only [Within] at h1 h2
    omega
  · left; rw [h]
  · right
    rintro r ⟨h1, h2⟩
    have := Nat.mul_le_mul_right sz (show j + 1 ≤ i from h)
    rw [Nat.add_mul, Nat.one_mul] at this
    simp only [Within] at h1 h2
    omega

/-- C180: swapping twice restores every byte. -/
theorem swap_twice (sz : Nat) (h : Heap) (a b : Nat × Nat) (ha : Valid h a sz) (hb : Valid h b sz)
    (hs : Separate a b sz) (h0 : 0 < sz) :
    ∃ h' h'', swap sz h (some a) (some b) = .ok h' ∧ swap sz h' (some a) (some b) = .ok h'' ∧
      ∀ q, byteAt h'' q = byteAt h q := by
  obtain ⟨da, ra, la, ga⟩ := read_ok ha
  obtain ⟨db, rb, lb, gb⟩ := read_ok hb
  obtain ⟨h1, w1, v1, _⟩ := write_ok (h := h) (p := a) (d := db) (by rw [lb]; exact ha)
  obtain ⟨h2, w2, v2, _⟩ := write_ok (h := h1) (p := b) (d := da) (by rw [la]; exact v1 b sz hb)
  have hc : some a = some b ∨ apart (some a) (some b) sz = true := by
    rcases hs with e | e
    · exact .inl (by rw [e])
    · exact .inr ((apart_iff a b sz h0).mpr e)
  have e2 : swap sz h (some a) (some b) = .ok h2 := by
    simp only [swap, ra, rb, Res.ok_bind, if_pos hc, w1, w2]
  obtain ⟨h', e, hq⟩ := swap_exact sz h a b ha hb hs h0
  rw [e2] at e; cases e
  obtain ⟨h'', e', hq'⟩ := swap_exact sz h2 a b (v2 _ _ (v1 _ _ ha)) (v2 _ _ (v1 _ _ hb)) hs h0
  refine ⟨h2, h'', e2, e', fun q => ?_⟩
  have wa : ∀ i, i < sz → Within (a.1, a.2 + i) a sz := fun i hi => ⟨rfl, by simp, by simp only []; omega⟩
  have wb : ∀ i, i < sz → Within (b.1, b.2 + i) b sz := fun i hi => ⟨rfl, by simp, by simp only []; omega⟩
  rw [hq']
  by_cases ia : Within q a sz
  · have hi : q.2 - a.2 < sz := by have := ia.2; omega
    have eq1 : (a.1, a.2 + (q.2 - a.2)) = q := by
      have := ia.2; exact Prod.ext ia.1.symm (by simp only []; omega)
    rw [if_pos ia, hq]
    by_cases ib : Within (b.1, b.2 + (q.2 - a.2)) a sz
    · rcases hs with e | e
      · subst e
        rw [if_pos ib, eq1, eq1]
      · exact absurd ⟨ib, wb _ hi⟩ (e _)
    · rw [if_neg ib, if_pos (wb _ hi)]
      simp only [Nat.add_sub_cancel_left, eq1]
  · rw [if_neg ia]
    by_cases ib : Within q b sz
    · have hi : q.2 - b.2 < sz := by have := ib.2; omega
      have eq1 : (b.1, b.2 + (q.2 - b.2)) = q := by
        have := ib.2; exact Prod.ext ib.1.symm (by simp only []; omega)
      rw [if_pos ib, hq, if_pos (wa _ hi)]
      simp only [Nat.add_sub_cancel_left, eq1]
    · rw [if_neg ib, hq, if_neg ia, if_neg ib]

/-! ## `Box` -/

/-- C180: `Box::free` ends the life of the object and of nothing else; on a null box it does nothing. -/
theorem box_free_exact (h : Heap) (k : Nat) (n : Nat) (hv : Valid h (k, 0) n) :
    (∃ h', boxFree h ⟨some (k, 0)⟩ = .ok (h', ⟨some (k, 0)⟩) ∧
      ∀ q, byteAt h' q = if q.1 = k then none else byteAt h q) ∧
    boxFree h ⟨none⟩ = .ok (h, ⟨none⟩) := by
  obtain ⟨b, hb, hl⟩ := hv
  have hk : k < h.blocks.length := by
    rcases Nat.lt_or_ge k h.blocks.length with h1 | h1
    · exact h1
    · rw [show h.blocks[(k, 0).1]? = h.blocks[k]? from rfl, List.getElem?_eq_none h1] at hb; cases hb
  refine ⟨⟨⟨h.blocks.set k none⟩, ?_, fun q => ?_⟩, rfl⟩
  · simp only [] at hb
    simp [boxFree, cfree, block, hb]
  · by_cases e : q.1 = k
    · simp [byteAt, e, List.getElem?_set_self hk]
    · simp only [byteAt, if_neg e, List.getElem?_set_ne (Ne.symm e)]

/-- C180 refuted: a freed box still holds its pointer: `is_null` is false, and freeing it again is
undefined. -/
theorem box_free_twice_violated (h : Heap) (k n : Nat) (hv : Valid h (k, 0) n) :
    ∃ h' b, boxFree h ⟨some (k, 0)⟩ = .ok (h', b) ∧ boxNull b = false ∧ boxFree h' b = .ub := by
  obtain ⟨⟨h', e, hq⟩, _⟩ := box_free_exact h k n hv
  refine ⟨h', _, e, rfl, ?_⟩
  obtain ⟨b, hb, hl⟩ := hv
  have hk : k < h.blocks.length := by
    rcases Nat.lt_or_ge k h.blocks.length with h1 | h1
    · exact h1
    · rw [show h.blocks[(k, 0).1]? = h.blocks[k]? from rfl, List.getElem?_eq_none h1] at hb; cases hb
  have e2 : h' = ⟨h.blocks.set k none⟩ := by
    simp only [] at hb
    simp [boxFree, cfree, block, hb] at e
    exact e.symm
  subst e2
  simp [boxFree, cfree, block, List.getElem?_set_self hk]

/-- C180 refuted: so is the free of a second box made from the same pointer, and every access
through it. -/
theorem box_shared_violated (h : Heap) (k n : Nat) (hv : Valid h (k, 0) n) (m : Nat) :
    ∃ h' b, boxFree h (boxFrom (boxGet ⟨some (k, 0)⟩)) = .ok (h', b) ∧
      boxFree h' ⟨some (k, 0)⟩ = .ub ∧ read h' (boxGet ⟨some (k, 0)⟩) m = .ub := by
  obtain ⟨h', b, e, _, e2⟩ := box_free_twice_violated h k n hv
  obtain ⟨⟨h2, e3, hq⟩, _⟩ := box_free_exact h k n hv
  rw [e3] at e
  cases e
  refine ⟨h', _, e3, e2, ?_⟩
  have : block h' k = .ub := by
    unfold boxFree cfree at e2
    simp only [ne_eq, reduceCtorEq, not_false_eq_true, if_true] at e2
    cases hb : block h' k with
    | ok x => rw [hb] at e2; cases e2
    | panic => unfold block at hb; split at hb <;> cases hb
    | ub => rfl
  simp only [read, boxGet, this]
  rfl

/-- A heap with an array of three numbers of two bytes: swapping the first and the last -/
example : swap 2 ⟨[some [some 1, some 2, some 3, some 4, some 5, some 6]]⟩ (some (0, 0)) (some (0, 4))
    = .ok ⟨[some [some 5, some 6, some 3, some 4, some 1, some 2]]⟩ ∧
    Valid ⟨[some [some 1, some 2, some 3, some 4, some 5, some 6]]⟩ (0, 4) 2 := by
  exact ⟨rfl, _, rfl, by decide⟩

end Verif.StdMem
