import Verif.CArena.Model

/-! # C36: the compiler's allocator -/

namespace Verif.CArena

open Spec

/-! ## Memory cells -/

theorem memcpy_ok (m xs : Mem Byte) (off : Nat) (h : off + xs.length ≤ m.length) :
    ∃ m', Mem.memcpy m off xs 0 xs.length = .ok m' ∧ m'.length = m.length ∧
      ∀ i, m'[i]? = if off ≤ i ∧ i < off + xs.length then xs[i - off]? else m[i]? := by
  unfold Mem.memcpy
  split
  · rename_i h0
    refine ⟨m, rfl, rfl, fun i => ?_⟩
    rw [if_neg (by omega)]
  · rw [if_pos ⟨h, by omega⟩]
    refine ⟨_, rfl, by simp; omega, fun i => ?_⟩
    simp only [List.drop_zero, List.take_length, List.append_assoc]
    by_cases h1 : i < off
    · rw [if_neg (by omega), List.getElem?_append_left (by simp; omega),
        List.getElem?_take_of_lt h1]
    · rw [List.getElem?_append_right (by simp; omega)]
      simp only [List.length_take, Nat.min_eq_left (show off ≤ m.length by omega)]
      by_cases h2 : i < off + xs.length
      · rw [if_pos ⟨by omega, h2⟩, List.getElem?_append_left (by omega)]
      · rw [if_neg (by omega), List.getElem?_append_right (by omega), List.getElem?_drop]
        congr 1; omega

/-- The cell at an offset of a block. -/
def cell (a : Arena) (k i : Nat) : Option (Option Byte) :=
  match a[k]? with
  | none => none
  | some b => b.data[i]?

/-- Blocks are consistent. -/
def BlockOk (b : Block) : Prop :=
  b.data.length = b.cap ∧ b.used ≤ b.cap ∧ b.used % 8 = 0 ∧ b.cap < 2 ^ 63

/-- All blocks are consistent. -/
def ArenaOk (a : Arena) : Prop := ∀ b ∈ a, BlockOk b

/-- Size of the used part of a block (0 for a block that does not exist). -/
def usedOf (a : Arena) (k : Nat) : Nat := ((a[k]?).map (·.used)).getD 0

theorem writeAt_ok (a : Arena) (ha : ArenaOk a) (p : Ptr) (xs : Mem Byte) (b : Block)
    (hb : a[p.blk]? = some b) (h : p.off + xs.length ≤ b.cap) :
    ∃ a', writeAt a p xs = .ok a' ∧ ArenaOk a' ∧ a'.length = a.length ∧
      (∀ k, usedOf a' k = usedOf a k) ∧
      (∀ k i, cell a' k i = if k = p.blk ∧ p.off ≤ i ∧ i < p.off + xs.length then xs[i - p.off]?
        else cell a k i) := by
  have hbo := ha b (List.mem_of_getElem? hb)
  obtain ⟨m', h1, h2, h3⟩ := memcpy_ok b.data xs p.off (by rw [hbo.1]; exact h)
  have hlt : p.blk < a.length := (List.getElem?_eq_some_iff.mp hb).1
  refine ⟨a.set p.blk { b with data := m' }, by unfold writeAt; rw [hb]; simp [h1], ?_, by simp,
    ?_, ?_⟩
  · intro c hc
    rcases List.mem_or_eq_of_mem_set hc with hc | hc
    · exact ha c hc
    · subst hc; exact ⟨by simp only; rw [h2]; exact hbo.1, hbo.2⟩
  · intro k
    unfold usedOf
    rw [List.getElem?_set]
    split
    · rename_i hk; subst hk; rw [hb]; simp [hlt]
    · rfl
  · intro k i
    unfold cell
    rw [List.getElem?_set]
    by_cases hk : p.blk = k
    · subst hk
      simp only [if_true, if_pos hlt, hb, true_and]
      exact h3 i
    · rw [if_neg hk, if_neg (fun e => hk e.1.symm)]

theorem readAt_ok (a : Arena) (p : Ptr) (n : Nat) (b : Block) (hb : a[p.blk]? = some b)
    (h : p.off + n ≤ b.data.length) :
    ∃ xs, readAt a p n = .ok xs ∧ xs.length = n ∧ ∀ i, i < n → xs[i]? = cell a p.blk (p.off + i) := by
  refine ⟨(b.data.drop p.off).take n, ?_, ?_, fun i hi => ?_⟩
  · unfold readAt; rw [hb]; simp only; rw [if_pos h]
  · simp; omega
  · unfold cell; rw [hb]; simp only
    rw [List.getElem?_take_of_lt hi, List.getElem?_drop]

/-! ## Allocation -/

theorem roundUp_ok (size : Nat) (h : size < 2 ^ 62) :
    roundUp ((size + 8) % W) % 8 = 0 ∧ size + 8 ≤ roundUp ((size + 8) % W) ∧
      roundUp ((size + 8) % W) < size + 16 := by
  unfold roundUp W
  simp only
  rw [Nat.mod_eq_of_lt (show size + 8 < 2 ^ 64 by omega),
    Nat.mod_eq_of_lt (show size + 8 + 7 < 2 ^ 64 by omega)]
  omega

theorem grow_ok (a : Arena) (ha : ArenaOk a) (actual : Nat) (h : actual < 2 ^ 62 + 16) :
    ∃ a' b, grow a actual = .ok a' ∧ ArenaOk a' ∧ a'.length = a.length + 1 ∧
      a'[a.length]? = some b ∧ b.used + actual ≤ b.cap ∧
      (∀ k, usedOf a k ≤ usedOf a' k) ∧ (∀ k i, k < a.length → cell a' k i = cell a k i) ∧
      (∀ k, k < a.length → a'[k]? = a[k]?) := by
  unfold grow
  simp only
  have hbs : (if actual > blockSize then actual else blockSize) < 2 ^ 63 ∧
      actual ≤ (if actual > blockSize then actual else blockSize) := by
    unfold blockSize; split <;> omega
  generalize (if actual > blockSize then actual else blockSize) = bs at hbs
  rw [if_pos (by unfold W; omega)]
  refine ⟨_, ⟨0, bs, Mem.malloc bs⟩, rfl, ?_, by simp, by simp, by simp; omega, ?_, ?_, ?_⟩
  · intro b hb
    rcases List.mem_append.mp hb with hb | hb
    · exact ha b hb
    · simp only [List.mem_cons, List.not_mem_nil, or_false] at hb
      subst hb
      exact ⟨by simp [Mem.malloc], by simp, rfl, hbs.1⟩
  · intro k
    unfold usedOf
    by_cases hk : k < a.length
    · rw [List.getElem?_append_left hk]; exact Nat.le_refl _
    · rw [List.getElem?_eq_none (by omega)]; simp
  · intro k i hk
    unfold cell
    rw [List.getElem?_append_left hk]
  · intro k hk
    rw [List.getElem?_append_left hk]

theorem room_ok (a : Arena) (ha : ArenaOk a) (actual : Nat) (h : actual < 2 ^ 62 + 16) :
    ∃ a' b, room a actual = .ok a' ∧ ArenaOk a' ∧ a'[a'.length - 1]? = some b ∧
      a.length ≤ a'.length ∧ b.used + actual ≤ b.cap ∧
      (∀ k, usedOf a k ≤ usedOf a' k) ∧ (∀ k i, k < a.length → cell a' k i = cell a k i) ∧
      (∀ k, k < a.length → a'[k]? = a[k]?) := by
  have viaGrow : ∃ a' b, grow a actual = .ok a' ∧ ArenaOk a' ∧ a'[a'.length - 1]? = some b ∧
      a.length ≤ a'.length ∧ b.used + actual ≤ b.cap ∧
      (∀ k, usedOf a k ≤ usedOf a' k) ∧ (∀ k i, k < a.length → cell a' k i = cell a k i) ∧
      (∀ k, k < a.length → a'[k]? = a[k]?) := by
    obtain ⟨a', b, h1, h2, h3, h4, h5, h6⟩ := grow_ok a ha actual h
    exact ⟨a', b, h1, h2, by rw [h3]; simpa using h4, by omega, h5, h6⟩
  unfold room
  cases hl : a.getLast? with
  | none => exact viaGrow
  | some b =>
    simp only
    have hb := ha b (List.mem_of_getLast? hl)
    split
    · exact viaGrow
    · rename_i hr
      refine ⟨a, b, rfl, ha, by rw [← hl, List.getLast?_eq_getElem?], Nat.le_refl _, ?_,
        fun _ => Nat.le_refl _, fun _ _ _ => rfl, fun _ _ => rfl⟩
      have h1 := hb.2.1; have h2 := hb.2.2.2
      rw [Nat.mod_eq_of_lt (by unfold W; omega)] at hr
      omega

/-- What an allocation guarantees: a header with the size, room for the object behind it in
memory that was not in use, and no change to memory in use. -/
theorem allocRaw_ok (a : Arena) (ha : ArenaOk a) (size : Nat) (h : size < 2 ^ 62) :
    ∃ a' p, allocRaw a size = .ok (a', p) ∧ ArenaOk a' ∧ a.length ≤ a'.length ∧
      p.blk < a'.length ∧ 8 ≤ p.off ∧ p.off % 8 = 0 ∧ p.off + size ≤ usedOf a' p.blk ∧
      usedOf a p.blk ≤ p.off - 8 ∧ (∀ k, usedOf a k ≤ usedOf a' k) ∧
      (∀ i, i < 8 → cell a' p.blk (p.off - 8 + i) = some (some (leByte size i))) ∧
      (∀ k i, k < a.length → ¬ (k = p.blk ∧ p.off - 8 ≤ i ∧ i < p.off) → cell a' k i = cell a k i) := by
  obtain ⟨r1, r2, r3⟩ := roundUp_ok size h
  unfold allocRaw
  simp only
  generalize roundUp ((size + 8) % W) = actual at *
  obtain ⟨a1, b, e1, ha1, hb, hlen, hfit, hused, hcell, hsame⟩ := room_ok a ha actual (by omega)
  rw [e1]; simp only [Res.ok_bind]
  rw [hb]; simp only
  have hbo := ha1 b (List.mem_of_getElem? hb)
  have hlt : a1.length - 1 < a1.length := (List.getElem?_eq_some_iff.mp hb).1
  have hcap := hbo.2.2.2
  have hmod : (b.used + actual) % W = b.used + actual := Nat.mod_eq_of_lt (by unfold W; omega)
  rw [hmod]
  generalize hidx : a1.length - 1 = idx at *
  -- the arena with the new `used`
  have ha2 : ArenaOk (a1.set idx { b with used := b.used + actual }) := by
    intro c hc
    rcases List.mem_or_eq_of_mem_set hc with hc | hc
    · exact ha1 c hc
    · subst hc
      have h8 := hbo.2.2.1
      exact ⟨hbo.1, hfit, by simp only; omega, hcap⟩
  have hb2 : (a1.set idx { b with used := b.used + actual })[idx]? =
      some { b with used := b.used + actual } := by
    rw [List.getElem?_set]; simp [hlt]
  have hlen2 : (a1.set idx { b with used := b.used + actual }).length - 1 = idx := by
    rw [List.length_set]; exact hidx
  have hcell2 : ∀ k i, cell (a1.set idx { b with used := b.used + actual }) k i = cell a1 k i := by
    intro k i
    unfold cell
    rw [List.getElem?_set]
    by_cases hk : idx = k
    · subst hk; rw [hb]; simp [hlt]
    · rw [if_neg hk]
  have hused2 : ∀ k, usedOf (a1.set idx { b with used := b.used + actual }) k =
      if k = idx then b.used + actual else usedOf a1 k := by
    intro k
    unfold usedOf
    rw [List.getElem?_set]
    by_cases hk : idx = k
    · subst hk; simp [hlt]
    · rw [if_neg hk, if_neg (fun e => hk e.symm)]
  obtain ⟨a3, e3, ha3, hl3, hu3, hc3⟩ := writeAt_ok _ ha2 ⟨idx, b.used⟩ (le8 size) _ hb2
    (by simp [le8]; omega)
  rw [hlen2, e3]
  simp only [Res.ok_bind]
  have hl3' : a3.length - 1 = idx := by rw [hl3]; exact hlen2
  rw [hl3']
  have hub : usedOf a1 idx = b.used := by unfold usedOf; rw [hb]; rfl
  have hle8 : (le8 size).length = 8 := by simp [le8]
  refine ⟨a3, ⟨idx, b.used + 8⟩, rfl, ha3, ?_, ?_, by simp, ?_, ?_, ?_, ?_, ?_, ?_⟩
  · rw [hl3, List.length_set]; exact hlen
  · rw [hl3, List.length_set]; exact hlt
  · have := hbo.2.2.1; simp only; omega
  · rw [hu3, hused2, if_pos rfl]; simp only; omega
  · have := hused idx; rw [hub] at this; simp only; omega
  · intro k
    rw [hu3, hused2]
    have := hused k
    split
    · rename_i hk; subst hk; rw [hub] at this; omega
    · exact this
  · intro i hi
    rw [hc3]
    simp only [Nat.add_sub_cancel]
    rw [if_pos ⟨trivial, by omega, by rw [hle8]; omega⟩]
    rw [show b.used + i - b.used = i by omega]
    simp [le8, hi]
  · intro k i hk hn
    rw [hc3, if_neg, hcell2, hcell k i hk]
    rintro ⟨h1, h2, h3⟩
    rw [hle8] at h3
    exact hn ⟨h1, by simp only at *; omega, by simp only at *; omega⟩

/-! ## Objects -/

/-- The object `o` is stored at `p`, with its size in front of it. -/
structure ObjAt (a : Arena) (p : Ptr) (o : Obj) : Prop where
  blk : p.blk < a.length
  head : 8 ≤ p.off
  align : p.off % 8 = 0
  fits : p.off + o.length ≤ usedOf a p.blk
  small : o.length < 2 ^ 62
  size : ∀ i, i < 8 → cell a p.blk (p.off - 8 + i) = some (some (leByte o.length i))
  bytes : ∀ (i : Nat) (v : Byte), o[i]? = some (some v) → cell a p.blk (p.off + i) = some (some v)

/-- The memory of two objects, headers included, does not overlap. -/
def Apart (p : Ptr) (o : Obj) (q : Ptr) (o' : Obj) : Prop :=
  p.blk = q.blk → p.off + o.length ≤ q.off - 8 ∨ q.off + o'.length ≤ p.off - 8

/-- The client's pointers denote these objects. -/
structure Rep (s : St) (os : List Obj) : Prop where
  ok : ArenaOk s.arena
  len : s.ptrs.length = os.length
  obj : ∀ (k : Nat) (p : Ptr) (o : Obj), s.ptrs[k]? = some p → os[k]? = some o → ObjAt s.arena p o
  apart : ∀ (k l : Nat) (p q : Ptr) (o o' : Obj), k ≠ l → s.ptrs[k]? = some p → s.ptrs[l]? = some q →
    os[k]? = some o → os[l]? = some o' → Apart p o q o'

/-- An object is still there if its cells are unchanged. -/
theorem ObjAt.frame {a a' : Arena} {p : Ptr} {o : Obj} (h : ObjAt a p o)
    (hlen : a.length ≤ a'.length) (hu : usedOf a p.blk ≤ usedOf a' p.blk)
    (hc : ∀ i, p.off - 8 ≤ i → i < p.off + o.length → cell a' p.blk i = cell a p.blk i) :
    ObjAt a' p o := by
  refine ⟨by have := h.blk; omega, h.head, h.align, by have := h.fits; omega, h.small, ?_, ?_⟩
  · intro i hi
    have := h.head
    rw [hc _ (by omega) (by omega)]; exact h.size i hi
  · intro i v hv
    have hi : i < o.length := (List.getElem?_eq_some_iff.mp hv).1
    rw [hc _ (by omega) (by omega)]; exact h.bytes i v hv

theorem getElem?_of_lt {a : Arena} {k : Nat} (h : k < a.length) : ∃ b, a[k]? = some b :=
  ⟨a[k], List.getElem?_eq_getElem h⟩

theorem usedOf_eq {a : Arena} {k : Nat} {b : Block} (h : a[k]? = some b) : usedOf a k = b.used := by
  unfold usedOf; rw [h]; rfl

theorem fromLe_le8 (n : Nat) (h : n < 2 ^ 62) (m : Mem Byte) (hm : m.length = 8)
    (hb : ∀ i, i < 8 → m[i]? = some (some (leByte n i))) : fromLe m = .ok n := by
  match m, hm with
  | [c0, c1, c2, c3, c4, c5, c6, c7], _ =>
    have e0 := hb 0 (by omega); have e1 := hb 1 (by omega); have e2 := hb 2 (by omega)
    have e3 := hb 3 (by omega); have e4 := hb 4 (by omega); have e5 := hb 5 (by omega)
    have e6 := hb 6 (by omega); have e7 := hb 7 (by omega)
    simp only [List.getElem?_cons_zero, List.getElem?_cons_succ, Option.some.injEq] at e0 e1 e2 e3 e4 e5 e6 e7
    subst e0 e1 e2 e3 e4 e5 e6 e7
    have hl : ∀ i, (leByte n i).toNat = n / 256 ^ i % 256 := fun i => by simp [leByte]
    simp only [fromLe, Res.ok_bind, hl]
    congr 1
    simp only [Nat.pow_zero, Nat.pow_succ, Nat.one_mul, Nat.div_one]
    omega

/-- A fresh object appended to the client's list. -/
theorem rep_append {s : St} {os : List Obj} (h : Rep s os) {a' : Arena} {p : Ptr} {o : Obj}
    (hok : ArenaOk a') (hobj : ObjAt a' p o) (hlen : s.arena.length ≤ a'.length)
    (hu : ∀ k, usedOf s.arena k ≤ usedOf a' k) (hp : usedOf s.arena p.blk ≤ p.off - 8)
    (hc : ∀ k i, k < s.arena.length → i < usedOf s.arena k → cell a' k i = cell s.arena k i) :
    Rep ⟨a', s.ptrs ++ [p]⟩ (os ++ [o]) := by
  have old : ∀ (k : Nat) (q : Ptr) (o' : Obj), s.ptrs[k]? = some q → os[k]? = some o' → ObjAt a' q o' := by
    intro k q o' h1 h2
    have hq := h.obj k q o' h1 h2
    exact hq.frame hlen (hu _) fun i h3 h4 => hc _ _ hq.blk (by have := hq.fits; omega)
  have hl := h.len
  refine ⟨hok, by simp [h.len], ?_, ?_⟩
  · intro k q o' h1 h2
    rcases Nat.lt_trichotomy k os.length with hk | hk | hk
    · rw [List.getElem?_append_left (by omega)] at h1
      rw [List.getElem?_append_left hk] at h2
      exact old k q o' h1 h2
    · subst hk
      rw [List.getElem?_append_right (by omega)] at h1
      rw [List.getElem?_append_right (by omega)] at h2
      simp [hl] at h1 h2
      subst h1 h2; exact hobj
    · rw [List.getElem?_eq_none (by simp; omega)] at h2; cases h2
  · have before : ∀ (k : Nat) (q : Ptr) (o' : Obj), s.ptrs[k]? = some q → os[k]? = some o' → q.blk = p.blk →
        q.off + o'.length ≤ p.off - 8 := by
      intro k q o' h1 h2 hb
      have hq := h.obj k q o' h1 h2
      have := hq.fits; rw [hb] at this; omega
    intro k l q r o1 o2 hkl h1 h2 h3 h4
    have hk : k < (os ++ [o]).length := (List.getElem?_eq_some_iff.mp h3).1
    have hl' : l < (os ++ [o]).length := (List.getElem?_eq_some_iff.mp h4).1
    simp only [List.length_append, List.length_cons, List.length_nil] at hk hl'
    by_cases hk2 : k < os.length
    · rw [List.getElem?_append_left (by omega)] at h1 h3
      by_cases hl2 : l < os.length
      · rw [List.getElem?_append_left (by omega)] at h2 h4
        exact h.apart k l q r o1 o2 hkl h1 h2 h3 h4
      · have : l = os.length := by omega
        subst this
        rw [List.getElem?_append_right (by omega)] at h2 h4
        simp [hl] at h2 h4
        subst h2 h4
        intro hb
        exact Or.inl (before k q o1 h1 h3 hb)
    · have : k = os.length := by omega
      subst this
      rw [List.getElem?_append_right (by omega)] at h1 h3
      simp [hl] at h1 h3
      subst h1 h3
      rw [List.getElem?_append_left (by omega)] at h2 h4
      intro hb
      exact Or.inr (before l r o2 h2 h4 hb.symm)

theorem alloc_rep {s : St} {os : List Obj} (h : Rep s os) (n : Nat) (hn : n < 2 ^ 62) :
    ∃ a p, allocRaw s.arena n = .ok (a, p) ∧ Rep ⟨a, s.ptrs ++ [p]⟩ (os ++ [List.replicate n none]) ∧
      (∀ (k : Nat) (q : Ptr) (o : Obj), s.ptrs[k]? = some q → os[k]? = some o → ObjAt a q o) := by
  obtain ⟨a, p, e, h1, h2, h3, h4, h5, h6, h7, h8, h9, h10⟩ := allocRaw_ok s.arena h.ok n hn
  have hc : ∀ k i, k < s.arena.length → i < usedOf s.arena k → cell a k i = cell s.arena k i := by
    intro k i hk hi
    refine h10 k i hk ?_
    rintro ⟨rfl, h, _⟩; omega
  refine ⟨a, p, e, rep_append h h1 ?_ h2 h8 h7 hc, ?_⟩
  · refine ⟨h3, h4, h5, by simpa using h6, by simpa using hn, by simpa using h9, ?_⟩
    intro i v hv
    rw [List.getElem?_replicate] at hv
    split at hv <;> simp at hv
  · intro k q o hq ho
    have := h.obj k q o hq ho
    exact this.frame h2 (h8 _) fun i h3 h4 => hc _ _ this.blk (by have := this.fits; omega)

/-- Writing inside one object changes that object only. -/
theorem write_rep {s : St} {os : List Obj} (h : Rep s os) {k : Nat} {p : Ptr} {o : Obj}
    (hp : s.ptrs[k]? = some p) (ho : os[k]? = some o) (i : Nat) (xs : Mem Byte) (o' : Obj)
    (hi : i + xs.length ≤ o.length) (hlen : o'.length = o.length)
    (hnew : ∀ (j : Nat) (v : Byte), o'[j]? = some (some v) →
      (if i ≤ j ∧ j < i + xs.length then xs[j - i]? else o[j]?) = some (some v)) :
    ∃ a, writeAt s.arena ⟨p.blk, p.off + i⟩ xs = .ok a ∧ Rep ⟨a, s.ptrs⟩ (os.set k o') := by
  have hob := h.obj k p o hp ho
  obtain ⟨b, hb⟩ := getElem?_of_lt hob.blk
  have hbo := h.ok b (List.mem_of_getElem? hb)
  have hfit := hob.fits
  rw [usedOf_eq hb] at hfit
  have hbu := hbo.2.1
  obtain ⟨a, e, h1, h2, h3, h4⟩ := writeAt_ok s.arena h.ok ⟨p.blk, p.off + i⟩ xs b hb
    (by simp only; omega)
  simp only at h4
  have hk : k < os.length := (List.getElem?_eq_some_iff.mp ho).1
  refine ⟨a, e, h1, by simp [h.len], ?_, ?_⟩
  · intro l q o2 hq ho2
    rw [List.getElem?_set] at ho2
    by_cases hkl : k = l
    · subst hkl
      simp only [if_true, if_pos hk, Option.some.injEq] at ho2
      subst ho2
      rw [hp] at hq
      injection hq with hq; subst hq
      have hh := hob.head
      refine ⟨by rw [h2]; exact hob.blk, hob.head, hob.align, ?_, by rw [hlen]; exact hob.small,
        ?_, ?_⟩
      · rw [h3, hlen]; exact hob.fits
      · intro j hj
        rw [h4, if_neg (by omega), hlen]
        exact hob.size j hj
      · intro j v hv
        have := hnew j v hv
        rw [h4]
        split at this
        · rename_i hc
          rw [if_pos ⟨rfl, by omega, by omega⟩]
          rw [show p.off + j - (p.off + i) = j - i by omega]; exact this
        · rename_i hc
          rw [if_neg (by omega)]
          exact hob.bytes j v this
    · rw [if_neg hkl] at ho2
      have hq2 := h.obj l q o2 hq ho2
      refine hq2.frame (by rw [h2]; exact Nat.le_refl _) (by rw [h3]; exact Nat.le_refl _) fun j hj1 hj2 => ?_
      rw [h4, if_neg]
      rintro ⟨hblk, hj3, hj4⟩
      have hqh := hq2.head
      have hph := hob.head
      rcases h.apart k l p q o o2 hkl hp hq ho ho2 hblk.symm with hc | hc <;> omega
  · intro l m q r o1 o2 hlm hq hr h5 h6
    have getL : ∀ (l : Nat) (o1 : Obj), (os.set k o')[l]? = some o1 → ∃ o0, os[l]? = some o0 ∧ o0.length = o1.length := by
      intro l o1 h5
      rw [List.getElem?_set] at h5
      by_cases hkl : k = l
      · subst hkl
        simp only [if_true, if_pos hk, Option.some.injEq] at h5
        subst h5; exact ⟨o, ho, hlen.symm⟩
      · rw [if_neg hkl] at h5; exact ⟨o1, h5, rfl⟩
    obtain ⟨p1, e1, l1⟩ := getL l o1 h5
    obtain ⟨p2, e2, l2⟩ := getL m o2 h6
    have := h.apart l m q r p1 p2 hlm hq hr e1 e2
    intro hb
    rw [← l1, ← l2]; exact this hb

theorem set_last {α : Type} (xs : List α) (a b : α) : (xs ++ [a]).set xs.length b = xs ++ [b] := by
  rw [List.set_append_right _ _ (Nat.le_refl _)]; simp

theorem step_rep {s : St} {os : List Obj} (h : Rep s os) (o : Op) (ho : OpOk os o) :
    ∃ s', CArena.step s o = .ok s' ∧ Rep s' (Spec.step os o) := by
  cases o with
  | malloc n =>
    obtain ⟨a, p, e, hr, _⟩ := alloc_rep h n ho
    exact ⟨_, by simp only [CArena.step, e, Res.ok_bind], hr⟩
  | calloc n m =>
    simp only [OpOk] at ho
    have hm : n * m % W = n * m := Nat.mod_eq_of_lt (by unfold W; omega)
    obtain ⟨a, p, e, hr, _⟩ := alloc_rep h (n * m) ho
    obtain ⟨a2, e2, hr2⟩ := write_rep hr (k := os.length) (p := p) (o := List.replicate (n * m) none)
      (by rw [← h.len]; simp) (by simp) 0
      (List.replicate (n * m) (some 0)) (List.replicate (n * m) (some 0)) (by simp) (by simp)
      (by
        intro j v hv
        have hj : j < n * m := by
          have := (List.getElem?_eq_some_iff.mp hv).1; simpa using this
        rw [if_pos ⟨by omega, by simpa using hj⟩]; simpa using hv)
    refine ⟨⟨a2, s.ptrs ++ [p]⟩, ?_, ?_⟩
    · simp only [CArena.step, xcalloc, hm, e, Res.ok_bind]
      simp only [Nat.add_zero] at e2
      rw [e2]; rfl
    · rw [set_last] at hr2; exact hr2
  | strdup t =>
    simp only [OpOk] at ho
    obtain ⟨a, p, e, hr, _⟩ := alloc_rep h (t.length + 1) ho
    have hp1 : (s.ptrs ++ [p])[os.length]? = some p := by rw [← h.len]; simp
    obtain ⟨a2, e2, hr2⟩ := write_rep hr (k := os.length) (p := p) (o := List.replicate (t.length + 1) none)
      hp1 (by simp) 0 (t.map some) (t.map some ++ [none]) (by simp) (by simp)
      (by
        intro j v hv
        by_cases hj : j < t.length
        · rw [if_pos ⟨by omega, by simpa using hj⟩]
          rw [List.getElem?_append_left (by simpa using hj)] at hv; simpa using hv
        · rw [List.getElem?_append_right (by simp; omega)] at hv
          rw [List.getElem?_singleton] at hv
          split at hv <;> simp at hv)
    rw [set_last] at hr2
    obtain ⟨a3, e3, hr3⟩ := write_rep hr2 (k := os.length) (p := p) (o := t.map some ++ [none])
      hp1 (by simp) t.length [some 0] (t.map some ++ [some 0]) (by simp) (by simp)
      (by
        intro j v hv
        by_cases hj : j < t.length
        · rw [if_neg (by simp; omega)]
          rw [List.getElem?_append_left (by simpa using hj)] at hv ⊢; exact hv
        · rw [List.getElem?_append_right (by simp; omega)] at hv
          rw [List.getElem?_singleton] at hv
          split at hv
          · rename_i h0
            simp at h0
            rw [if_pos ⟨by omega, by simp; omega⟩, show j - t.length = 0 by omega]
            exact hv
          · simp at hv)
    rw [set_last] at hr3
    refine ⟨⟨a3, s.ptrs ++ [p]⟩, ?_, hr3⟩
    simp only [CArena.step, xstrdup, e, Res.ok_bind]
    simp only [Nat.add_zero] at e2
    rw [e2]; simp only [Res.ok_bind]
    rw [e3]; rfl
  | realloc k n =>
    obtain ⟨hk, hn⟩ := ho
    obtain ⟨o, hok⟩ : ∃ o, os[k]? = some o := ⟨os[k], List.getElem?_eq_getElem hk⟩
    obtain ⟨p, hpk⟩ : ∃ p, s.ptrs[k]? = some p :=
      ⟨s.ptrs[k]'(by rw [h.len]; exact hk), List.getElem?_eq_getElem _⟩
    have hob := h.obj k p o hpk hok
    obtain ⟨b, hb⟩ := getElem?_of_lt hob.blk
    have hbo := h.ok b (List.mem_of_getElem? hb)
    have hfit := hob.fits
    rw [usedOf_eq hb] at hfit
    have hbu := hbo.2.1
    have hhead := hob.head
    -- the old size is read back
    obtain ⟨hd, er, hl8, hcells⟩ := readAt_ok s.arena ⟨p.blk, p.off - 8⟩ 8 b hb
      (by rw [hbo.1]; simp only; omega)
    have hsz : fromLe hd = .ok o.length := fromLe_le8 _ hob.small _ hl8 fun i hi => by
      rw [hcells i hi]; exact hob.size i hi
    simp only [CArena.step, hpk, xrealloc, er, Res.ok_bind, hsz]
    by_cases hle : n ≤ o.length
    · rw [if_pos hle]
      refine ⟨_, rfl, ?_⟩
      have e1 : s.ptrs.set k p = s.ptrs := by
        apply List.ext_getElem?; intro i; rw [List.getElem?_set]; split
        · rename_i hi; subst hi; rw [hpk]; simp [h.len, hk]
        · rfl
      have e2 : Spec.step os (.realloc k n) = os := by
        simp only [Spec.step]
        apply List.ext_getElem?; intro i; rw [List.getElem?_modify]; split
        · rename_i hi; subst hi; rw [hok]; simp [Nat.sub_eq_zero_of_le hle]
        · simp
      rw [e1, e2]; exact h
    · rw [if_neg hle]
      obtain ⟨a, q, e, hr, hold⟩ := alloc_rep h n hn
      rw [e]; simp only [Res.ok_bind]
      have hob2 := hold k p o hpk hok
      obtain ⟨b2, hb2⟩ := getElem?_of_lt hob2.blk
      have hbo2 := hr.ok b2 (List.mem_of_getElem? hb2)
      have hfit2 := hob2.fits
      rw [usedOf_eq hb2] at hfit2
      have hbu2 := hbo2.2.1
      obtain ⟨xs, ex, hxl, hxc⟩ := readAt_ok a p o.length b2 hb2 (by rw [hbo2.1]; omega)
      rw [ex]; simp only [Res.ok_bind]
      obtain ⟨a2, e2, hr2⟩ := write_rep hr (k := os.length) (p := q) (o := List.replicate n none)
        (by rw [← h.len]; simp) (by simp) 0 xs (o ++ List.replicate (n - o.length) none)
        (by simp; omega) (by simp; omega)
        (by
          intro j v hv
          by_cases hj : j < o.length
          · rw [if_pos ⟨by omega, by omega⟩]
            rw [List.getElem?_append_left hj] at hv
            rw [Nat.sub_zero, hxc j hj]
            exact hob2.bytes j v hv
          · rw [List.getElem?_append_right (by omega), List.getElem?_replicate] at hv
            split at hv <;> simp at hv)
      rw [set_last] at hr2
      simp only [Nat.add_zero] at e2
      rw [e2]; simp only [Res.ok_bind]
      refine ⟨_, rfl, hr2.ok, ?_, ?_, ?_⟩
      · simp [Spec.step, h.len]
      · -- the new pointer takes the place of the old one
        intro l r o' h1 h2
        rw [List.getElem?_set] at h1
        simp only [Spec.step, List.getElem?_modify] at h2
        by_cases hkl : k = l
        · subst hkl
          rw [hok] at h2
          simp [h.len, hk] at h1 h2
          subst h1 h2
          exact hr2.obj os.length q _ (by rw [← h.len]; simp) (by simp)
        · rw [if_neg hkl] at h1
          simp only [if_neg hkl, id_map'] at h2
          have hl : l < os.length := (List.getElem?_eq_some_iff.mp h2).1
          exact hr2.obj l r o' (by rw [List.getElem?_append_left (by rw [h.len]; exact hl)]; exact h1)
            (by rw [List.getElem?_append_left hl]; exact h2)
      · -- index of an object in the longer list
        have idx : ∀ (l : Nat) (r : Ptr) (o' : Obj), (s.ptrs.set k q)[l]? = some r →
            (Spec.step os (.realloc k n))[l]? = some o' →
            ∃ l', (s.ptrs ++ [q])[l']? = some r ∧
              (os ++ [o ++ List.replicate (n - o.length) none])[l']? = some o' ∧
              l' = (if l = k then os.length else l) ∧ l < os.length := by
          intro l r o' h1 h2
          rw [List.getElem?_set] at h1
          simp only [Spec.step, List.getElem?_modify] at h2
          by_cases hkl : k = l
          · subst hkl
            rw [hok] at h2
            simp [h.len, hk] at h1 h2
            subst h1 h2
            exact ⟨os.length, by rw [← h.len]; simp, by simp, by simp, hk⟩
          · rw [if_neg hkl] at h1
            simp only [if_neg hkl, id_map'] at h2
            have hl : l < os.length := (List.getElem?_eq_some_iff.mp h2).1
            exact ⟨l, by rw [List.getElem?_append_left (by rw [h.len]; exact hl)]; exact h1,
              by rw [List.getElem?_append_left hl]; exact h2,
              by rw [if_neg (fun e => hkl e.symm)], hl⟩
        intro l m r t o1 o2 hlm h1 h2 h3 h4
        obtain ⟨l', a1, a2, a3, a4⟩ := idx l r o1 h1 h3
        obtain ⟨m', b1, b2, b3, b4⟩ := idx m t o2 h2 h4
        refine hr2.apart l' m' r t o1 o2 ?_ a1 b1 a2 b2
        intro he
        rw [a3, b3] at he
        split at he <;> split at he <;> omega
  | write k i v =>
    obtain ⟨o, hok, hi⟩ := ho
    have hk : k < os.length := (List.getElem?_eq_some_iff.mp hok).1
    obtain ⟨p, hpk⟩ : ∃ p, s.ptrs[k]? = some p :=
      ⟨s.ptrs[k]'(by rw [h.len]; exact hk), List.getElem?_eq_getElem _⟩
    obtain ⟨a, e, hr⟩ := write_rep h hpk hok i [some v] (o.set i (some v)) (by simp; omega) (by simp)
      (by
        intro j w hv
        rw [List.getElem?_set] at hv
        split at hv
        · rename_i hij; subst hij
          rw [if_pos ⟨Nat.le_refl _, by simp⟩]
          simp [hi] at hv
          simp [hv]
        · rename_i hij
          rw [if_neg (by simp; omega)]; exact hv)
    refine ⟨⟨a, s.ptrs⟩, by simp only [CArena.step, hpk, e, Res.ok_bind], ?_⟩
    have : Spec.step os (.write k i v) = os.set k (o.set i (some v)) := by
      simp only [Spec.step]
      apply List.ext_getElem?; intro l
      rw [List.getElem?_modify, List.getElem?_set]
      split
      · rename_i hl; subst hl; rw [hok]; simp [hk]
      · simp
    rw [this]; exact hr

/-- C36.  For every history of requests below 2^62 bytes: no access leaves the memory
obtained; every pointer is a multiple of 8 (block data starts at a multiple of 8); every
object has at least the size asked for, keeps what was written to it, also across
reallocation; and no two objects, nor their size fields, overlap. -/
theorem arena_objects_partial (ops : List Op) (ho : OpsOk [] ops) :
    ∃ s, run ⟨[], []⟩ ops = .ok s ∧ s.ptrs.length = (Spec.run [] ops).length ∧
      (∀ (k : Nat) (p : Ptr) (o : Obj), s.ptrs[k]? = some p → (Spec.run [] ops)[k]? = some o →
        (24 + p.off) % 8 = 0 ∧
        ∃ xs, readAt s.arena p o.length = .ok xs ∧ xs.length = o.length ∧
          ∀ (i : Nat) (v : Byte), o[i]? = some (some v) → xs[i]? = some (some v)) ∧
      (∀ (k l : Nat) (p q : Ptr) (o o' : Obj), k ≠ l → s.ptrs[k]? = some p → s.ptrs[l]? = some q →
        (Spec.run [] ops)[k]? = some o → (Spec.run [] ops)[l]? = some o' → p.blk = q.blk →
        p.off + o.length ≤ q.off ∨ q.off + o'.length ≤ p.off) := by
  have key : ∀ (ops : List Op) (s : St) (os : List Obj), Rep s os → OpsOk os ops →
      ∃ s', run s ops = .ok s' ∧ Rep s' (Spec.run os ops) := by
    intro ops
    induction ops with
    | nil => intro s os h _; exact ⟨s, rfl, h⟩
    | cons o ops ih =>
      intro s os h ho
      obtain ⟨s1, e1, h1⟩ := step_rep h o ho.1
      obtain ⟨s2, e2, h2⟩ := ih s1 _ h1 ho.2
      exact ⟨s2, by rw [run, e1]; exact e2, h2⟩
  obtain ⟨s, e, h⟩ := key ops ⟨[], []⟩ [] ⟨(by intro b hb; cases hb), rfl, by simp, by simp⟩ ho
  refine ⟨s, e, h.len, ?_, ?_⟩
  · intro k p o hp hok
    have hob := h.obj k p o hp hok
    obtain ⟨b, hb⟩ := getElem?_of_lt hob.blk
    have hbo := h.ok b (List.mem_of_getElem? hb)
    have hfit := hob.fits
    rw [usedOf_eq hb] at hfit
    have hbu := hbo.2.1
    obtain ⟨xs, ex, hxl, hxc⟩ := readAt_ok s.arena p o.length b hb (by rw [hbo.1]; omega)
    refine ⟨by have := hob.align; omega, xs, ex, hxl, fun i v hv => ?_⟩
    have hi : i < o.length := (List.getElem?_eq_some_iff.mp hv).1
    rw [hxc i hi]; exact hob.bytes i v hv
  · intro k l p q o o' hkl hp hq h1 h2 hb
    have := h.apart k l p q o o' hkl hp hq h1 h2 hb
    omega

/-- C36 fails for sizes that wrap around: a request for `2^64 - 8` bytes succeeds and the
next request gets the very same address. -/
theorem arena_wrap_violated (a : Arena) (ha : ArenaOk a) (b : Block) (hl : a.getLast? = some b)
    (hroom : b.used + 16 ≤ b.cap) :
    ∃ s p, run ⟨a, []⟩ [.malloc (2 ^ 64 - 8), .malloc 8] = .ok s ∧ s.ptrs = [p, p] := by
  have hb := ha b (List.mem_of_getLast? hl)
  have hidx : a[a.length - 1]? = some b := by rw [← hl, List.getLast?_eq_getElem?]
  have hcap := hb.2.2.2
  have hlt : a.length - 1 < a.length := (List.getElem?_eq_some_iff.mp hidx).1
  have hz : roundUp ((2 ^ 64 - 8 + 8) % W) = 0 := by decide
  have h16 : roundUp ((8 + 8) % W) = 16 := by decide
  have hmod : b.used % W = b.used := Nat.mod_eq_of_lt (by unfold W; omega)
  have hmod2 : (b.used + 16) % W = b.used + 16 := Nat.mod_eq_of_lt (by unfold W; omega)
  -- first request
  have hset : a.set (a.length - 1) { b with used := b.used } = a := by
    apply List.ext_getElem?; intro i; rw [List.getElem?_set]; split
    · rename_i hi; subst hi; rw [hidx]
    · rfl
  obtain ⟨m1, e1, hl1, _⟩ := memcpy_ok b.data (le8 (2 ^ 64 - 8)) b.used (by
    rw [hb.1]; simp [le8]; omega)
  obtain ⟨m2, e2, hl2, _⟩ := memcpy_ok m1 (le8 8) b.used (by
    rw [hl1, hb.1]; simp [le8]; omega)
  have s1 : allocRaw a (2 ^ 64 - 8) = .ok (a.set (a.length - 1) { b with data := m1 },
      ⟨a.length - 1, b.used + 8⟩) := by
    unfold allocRaw
    simp only [hz, room, hl, Nat.add_zero, hmod]
    rw [if_neg (by have := hb.2.1; omega)]
    simp only [Res.ok_bind, hidx, Nat.add_zero, hmod, hset, writeAt, e1, List.length_set]
  have hl' : (a.set (a.length - 1) { b with data := m1 }).getLast? = some { b with data := m1 } := by
    rw [List.getLast?_eq_getElem?, List.length_set, List.getElem?_set]; simp [hlt]
  have s2 : allocRaw (a.set (a.length - 1) { b with data := m1 }) 8 =
      .ok (a.set (a.length - 1) { b with used := b.used + 16, data := m2 },
      ⟨a.length - 1, b.used + 8⟩) := by
    unfold allocRaw
    simp only [h16, room, hl', hmod2]
    rw [if_neg (by omega)]
    simp only [Res.ok_bind, List.length_set, List.getElem?_set, hlt, if_true, hmod2, List.set_set, writeAt, e2]
  exact ⟨⟨_, [⟨a.length - 1, b.used + 8⟩, ⟨a.length - 1, b.used + 8⟩]⟩, _,
    by simp only [run, CArena.step, s1, s2, Res.ok_bind, List.nil_append]; rfl, rfl⟩

/-! ## Concrete cases -/

theorem malloc_length (n : Nat) : (Mem.malloc (α := Byte) n).length = n := by
  unfold Mem.malloc; exact List.length_replicate

/-- The first allocation leaves a block with a large rest. -/
theorem first_alloc (bs : Nat) (m0 : Mem Byte) (h8 : 8 ≤ m0.length)
    (hr : room [] 16 = .ok [⟨0, bs, m0⟩]) :
    ∃ m, allocRaw [] 8 = .ok ([⟨16, bs, m⟩], ⟨0, 8⟩) := by
  have h16 : roundUp 16 = 16 := by decide
  have hw : 16 % W = 16 := by decide
  obtain ⟨m, e, hl, _⟩ := memcpy_ok m0 (le8 8) 0 (by
    have h1 : (le8 8).length = 8 := rfl
    rw [h1]; omega)
  refine ⟨m, ?_⟩
  unfold allocRaw
  simp only [h16, hr, Res.ok_bind, List.length_cons, List.length_nil, Nat.zero_add, hw,
    Nat.sub_self, List.getElem?_cons_zero, List.set_cons_zero, writeAt, e]

/-- The hypotheses of `arena_wrap_violated` hold after the first allocation of 8 bytes. -/
example : ∃ a p b, allocRaw [] 8 = .ok (a, p) ∧ ArenaOk a ∧ a.getLast? = some b ∧
    b.used + 16 ≤ b.cap := by
  have h0 : ArenaOk [] := by intro b hb; cases hb
  have hbs : (if 16 > blockSize then 16 else blockSize) = blockSize := by decide
  have h24 : 24 + blockSize < W := by decide
  have h32 : 16 + 16 ≤ blockSize := by decide
  obtain ⟨m, hA⟩ := first_alloc blockSize (Mem.malloc blockSize)
    (by rw [malloc_length]; omega)
    (by simp only [room, List.getLast?_nil, grow]; rw [hbs, if_pos h24, List.nil_append])
  obtain ⟨a, p, e', h1, _⟩ := allocRaw_ok [] h0 8 (by decide)
  rw [hA] at e'
  injection e' with e'
  injection e' with e1 e2
  exact ⟨_, _, ⟨16, blockSize, m⟩, hA, by rw [e1]; exact h1, by rw [List.getLast?_singleton], h32⟩

example : OpsOk [] [.malloc 5, .write 0 4 7, .strdup [104, 105], .realloc 0 20, .write 0 19 9,
    .calloc 3 4, .realloc 1 2] := by
  simp [OpsOk, OpOk, Spec.step, List.modify]

end Verif.CArena
