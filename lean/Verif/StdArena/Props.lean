import Verif.StdArena.Model
import Verif.Str.Lemmas

/-! # Properties of the library arena (C16) -/

namespace Verif.StdArena
open Verif Verif.Str

theorem and_mask (x : Nat) (h : x < 2 ^ 64) : x &&& (2 ^ 64 - 8) = x / 8 * 8 := by
  have h1 : x / 8 * 8 = (x >>> 3) <<< 3 := by
    rw [Nat.shiftLeft_eq, Nat.shiftRight_eq_div_pow]
  have h2 : 2 ^ 64 - 8 = (2 ^ 61 - 1) <<< 3 := by decide
  rw [h1, h2]
  apply Nat.eq_of_testBit_eq
  intro i
  rw [Nat.testBit_and, Nat.testBit_shiftLeft, Nat.testBit_shiftLeft, Nat.testBit_shiftRight,
    Nat.testBit_two_pow_sub_one]
  by_cases h3 : 3 ≤ i
  · simp only [h3, decide_true, Bool.true_and, ge_iff_le]
    rw [show 3 + (i - 3) = i by omega]
    by_cases h64 : i < 64
    · simp [show i - 3 < 61 by omega]
    · rw [Nat.testBit_lt_two_pow (Nat.lt_of_lt_of_le h (Nat.pow_le_pow_right (by omega) (by omega)))]
      simp
  · simp [h3]

theorem alignUp_eq (n : Nat) (h : n < 2 ^ 63) : alignUp n = (n + 7) / 8 * 8 := by
  unfold alignUp
  rw [Nat.mod_eq_of_lt (show n + 7 < W by unfold W; omega), and_mask _ (by omega)]

/-- Invariant of all histories. -/
structure Inv (cap : Nat) (s : St) : Prop where
  cap_eq : s.arena.capacity = cap
  mem_len : s.arena.mem.length = cap
  used_le : s.arena.used ≤ cap
  small : cap < 2 ^ 63
  live_le : ∀ b ∈ s.live, b.start + b.size ≤ s.arena.used
  aligned : ∀ b ∈ s.live, b.start % 8 = 0
  disj : s.live.Pairwise Spec.Disjoint

theorem Inv.safe {cap : Nat} {s : St} (h : Inv cap s) : Spec.Safe cap s.live :=
  ⟨fun b hb => ⟨h.aligned b hb, Nat.le_trans (h.live_le b hb) h.used_le⟩, h.disj⟩

theorem inv_new (cap : Nat) (h : cap < 2 ^ 63) : Inv cap ⟨new cap, []⟩ where
  cap_eq := rfl
  mem_len := by simp [new, Mem.malloc]
  used_le := Nat.zero_le _
  small := h
  live_le := by simp
  aligned := by simp
  disj := .nil

/-- Bytes of a block. -/
def content (a : Arena) (b : Block) : Mem Byte := (a.mem.drop b.start).take b.size

theorem allocBytes_cases {cap : Nat} {s : St} (h : Inv cap s) (size : Nat) (hs : size < 2 ^ 63) :
    allocBytes s.arena size = (none, s.arena) ∨
    ∃ p, allocBytes s.arena size = (some p, ⟨s.arena.mem, s.arena.capacity, p + size⟩) ∧
      s.arena.used ≤ p ∧ p % 8 = 0 ∧ p + size ≤ cap := by
  have hu : s.arena.used < 2 ^ 63 := Nat.lt_of_le_of_lt h.used_le h.small
  have hsm := h.small
  have hul := h.used_le
  have hce := h.cap_eq
  unfold allocBytes
  simp only [alignUp_eq _ hu]
  have hm : ((s.arena.used + 7) / 8 * 8 + size) % W = (s.arena.used + 7) / 8 * 8 + size := by
    apply Nat.mod_eq_of_lt
    unfold W; omega
  rw [hm]
  split
  · exact .inl rfl
  · refine .inr ⟨_, rfl, by omega, by omega, by omega⟩

theorem Inv.alloc {cap : Nat} {s : St} (h : Inv cap s) {p size : Nat} (h1 : s.arena.used ≤ p)
    (h2 : p % 8 = 0) (h3 : p + size ≤ cap) (mem : Mem Byte) (hm : mem.length = cap) :
    Inv cap ⟨⟨mem, s.arena.capacity, p + size⟩, ⟨p, size⟩ :: s.live⟩ where
  cap_eq := h.cap_eq
  mem_len := hm
  used_le := h3
  small := h.small
  live_le := by
    intro b hb
    rw [List.mem_cons] at hb
    rcases hb with hb | hb
    · subst hb; exact Nat.le_refl _
    · have := h.live_le b hb
      simp only; omega
  aligned := by
    intro b hb
    rw [List.mem_cons] at hb
    rcases hb with hb | hb
    · subst hb; exact h2
    · exact h.aligned b hb
  disj := by
    refine .cons (fun b hb => ?_) h.disj
    have := h.live_le b hb
    exact .inr (by simp only; omega)

theorem memset_ok (m : Mem Byte) (off n : Nat) (v : Byte) (h : off + n ≤ m.length) :
    ∃ m', memset m off n v = .ok m' ∧ m'.length = m.length ∧
      (m'.drop off).take n = List.replicate n (some v) ∧
      (∀ a k, a + k ≤ off → (m'.drop a).take k = (m.drop a).take k) := by
  unfold memset
  by_cases hn : n = 0
  · rw [if_pos hn]
    exact ⟨m, rfl, rfl, by subst hn; simp, fun _ _ _ => rfl⟩
  · rw [if_neg hn, if_pos h]
    refine ⟨_, rfl, by simp; omega, ?_, ?_⟩
    · rw [List.append_assoc, List.drop_append_of_le_length (by simp; omega),
        List.drop_of_length_le (by simp; omega), List.nil_append, List.take_left' (by simp)]
    · intro a k hak
      rw [List.append_assoc, List.drop_append_of_le_length (by simp; omega),
        List.take_append_of_le_length (by simp; omega), List.drop_take,
        List.take_take, Nat.min_eq_left (by omega)]

theorem memcpy_ok (m src : Mem Byte) (off n : Nat) (h : off + n ≤ m.length) (hs : n ≤ src.length) :
    ∃ m', Mem.memcpy m off src 0 n = .ok m' ∧ m'.length = m.length ∧
      (m'.drop off).take n = src.take n ∧
      (∀ a k, a + k ≤ off ∨ off + n ≤ a → (m'.drop a).take k = (m.drop a).take k) := by
  unfold Mem.memcpy
  by_cases hn : n = 0
  · rw [if_pos hn]
    exact ⟨m, rfl, rfl, by subst hn; simp, fun _ _ _ => rfl⟩
  · rw [if_neg hn, if_pos (by omega)]
    refine ⟨_, rfl, by simp; omega, ?_, ?_⟩
    · rw [List.append_assoc, List.drop_append_of_le_length (by simp; omega),
        List.drop_of_length_le (by simp; omega), List.nil_append, List.take_left' (by simp; omega)]
      simp
    · intro a k hak
      rcases hak with hak | hak
      · rw [List.append_assoc, List.drop_append_of_le_length (by simp; omega),
          List.take_append_of_le_length (by simp; omega), List.drop_take,
          List.take_take, Nat.min_eq_left (by omega)]
      · have hl : (m.take off ++ (src.drop 0).take n).length = off + n := by simp; omega
        rw [List.drop_append, hl, List.drop_of_length_le (by omega), List.nil_append,
          List.drop_drop, show off + n + (a - (off + n)) = a by omega]

/-- The effect of one call under the guard. -/
theorem step_ok {cap : Nat} {s : St} (h : Inv cap s) (op : Op) (hg : Spec.Guard1 s.live op) :
    ∃ r s', step s op = .ok (r, s') ∧ Inv cap s' ∧
      (∀ b ∈ s'.live, b ∈ s.live →
        (∀ p bs, op = .write p bs → Spec.Disjoint b ⟨p, bs.length⟩) →
        content s'.arena b = content s.arena b) := by
  have hml := h.mem_len
  cases op with
  | allocBytes size =>
    simp only [step]
    rcases allocBytes_cases h size hg with he | ⟨p, he, h1, h2, h3⟩
    · rw [he]; exact ⟨_, _, rfl, h, fun _ _ _ _ => rfl⟩
    · rw [he]; exact ⟨_, _, rfl, h.alloc h1 h2 h3 _ hml, fun _ _ _ _ => rfl⟩
  | allocN sz count =>
    have hg' : sz * count < 2 ^ 63 := hg
    have hm : sz * count % W = sz * count := Nat.mod_eq_of_lt (by unfold W; omega)
    simp only [step, allocN, hm]
    rcases allocBytes_cases h (sz * count) hg with he | ⟨p, he, h1, h2, h3⟩
    · rw [he]; exact ⟨_, _, rfl, h, fun _ _ _ _ => rfl⟩
    · rw [he]
      obtain ⟨m', hm', hl, _, hf⟩ := memset_ok s.arena.mem p (sz * count) 0 (by omega)
      simp only [hm', Res.ok_bind]
      refine ⟨_, _, rfl, h.alloc h1 h2 h3 _ (by omega), ?_⟩
      intro b _ hb _
      exact hf b.start b.size (Nat.le_trans (h.live_le b hb) h1)
  | dupStr bs =>
    have hg' : bs.length < 2 ^ 62 := hg
    have hll : (Str.Spec.lit bs).length ≤ bs.length := (List.takeWhile_prefix _).length_le
    have hm : ((Str.Spec.lit bs).length + 1) % W = (Str.Spec.lit bs).length + 1 :=
      Nat.mod_eq_of_lt (by unfold W; omega)
    simp only [step, dupStr, (cmem_ctext bs).strlen, Res.ok_bind, hm]
    rcases allocBytes_cases h ((Str.Spec.lit bs).length + 1) (by omega) with
      he | ⟨p, he, h1, h2, h3⟩
    · rw [he]; exact ⟨_, _, rfl, h, fun _ _ _ _ => rfl⟩
    · rw [he]
      obtain ⟨m', hm', hl, _, hf⟩ := memcpy_ok s.arena.mem (cmem bs) p ((Str.Spec.lit bs).length + 1)
        (by omega) (by simp [cmem]; omega)
      simp only [hm', Res.ok_bind]
      refine ⟨_, _, rfl, h.alloc h1 h2 h3 _ (by omega), ?_⟩
      intro b _ hb _
      exact hf b.start b.size (.inl (Nat.le_trans (h.live_le b hb) h1))
  | write p bs =>
    obtain ⟨b0, hb0, hp1, hp2⟩ := hg
    have := h.live_le b0 hb0
    have hul := h.used_le
    obtain ⟨m', hm', hl, _, hf⟩ := memcpy_ok s.arena.mem (bs.map some) p bs.length
      (by omega) (by simp)
    simp only [step, hm', Res.ok_bind]
    refine ⟨_, _, rfl, ⟨h.cap_eq, by simp only; omega, h.used_le, h.small, h.live_le, h.aligned,
      h.disj⟩, ?_⟩
    intro b _ _ hd
    exact hf b.start b.size (hd p bs rfl)
  | restore mark =>
    simp only [step, restore]
    by_cases hmk : mark ≤ s.arena.used
    · simp only [hmk, if_true]
      refine ⟨_, _, rfl, ⟨h.cap_eq, hml, Nat.le_trans hmk h.used_le, h.small, ?_, ?_, ?_⟩,
        fun _ _ _ _ => rfl⟩
      · intro b hb
        rw [List.mem_filter] at hb
        simpa using hb.2
      · intro b hb
        exact h.aligned b (List.mem_filter.1 hb).1
      · exact h.disj.filter _
    · simp only [hmk, if_false]
      exact ⟨_, _, rfl, h, fun _ _ _ _ => rfl⟩
  | reset =>
    exact ⟨_, _, rfl, ⟨h.cap_eq, hml, Nat.zero_le _, h.small, by simp, by simp, .nil⟩,
      fun _ hb _ _ => absurd hb (by simp)⟩

/-- **C16 (partial).** In any history of allocations, writes into held blocks, restores (to any
marks) and resets, every block held is 8-aligned, inside the arena and disjoint from the others, and
no call accesses memory outside the arena.  Missing: requests whose size (or size plus offset) wraps
around 2^64, for which the claim is false (`arena_wrap_violated`, `arena_alloc_n_violated`). -/
theorem arena_blocks_safe_partial (cap : Nat) (hcap : cap < 2 ^ 63) (ops : List Op)
    (hg : Guard ⟨new cap, []⟩ ops) :
    ∃ s, run ⟨new cap, []⟩ ops = .ok s ∧ Spec.Safe cap s.live := by
  have key : ∀ (ops : List Op) (s : St), Inv cap s → Guard s ops →
      ∃ s', run s ops = .ok s' ∧ Inv cap s' := by
    intro ops
    induction ops with
    | nil => intro s h _; exact ⟨s, rfl, h⟩
    | cons op ops ih =>
      intro s h hg
      obtain ⟨r, s', hs, hi, _⟩ := step_ok h op hg.1
      obtain ⟨s'', hr, hi'⟩ := ih s' hi (hg.2 r s' hs)
      exact ⟨s'', by simp only [run, hs, Res.ok_bind, hr], hi'⟩
  obtain ⟨s, hs, hi⟩ := key ops _ (inv_new cap hcap) hg
  exact ⟨s, hs, hi.safe⟩

/-- Reachable states. -/
inductive Reach (cap : Nat) : St → Prop where
  | new : cap < 2 ^ 63 → Reach cap ⟨new cap, []⟩
  | step (s s' : St) (op : Op) (r : Option Nat) : Reach cap s → Spec.Guard1 s.live op →
      step s op = .ok (r, s') → Reach cap s'

theorem Reach.inv {cap : Nat} {s : St} (h : Reach cap s) : Inv cap s := by
  induction h with
  | new hc => exact inv_new cap hc
  | step s s' op r _ hg hs ih =>
    obtain ⟨r', s'', hs', hi, _⟩ := step_ok ih op hg
    rw [hs] at hs'
    cases hs'
    exact hi

/-- **C16 (partial).** No call changes the bytes of a block that stays live, except a client write
that overlaps it.  Same guard as `arena_blocks_safe_partial`. -/
theorem arena_contents_kept_partial (cap : Nat) (s s' : St) (op : Op) (r : Option Nat)
    (h : Reach cap s) (hg : Spec.Guard1 s.live op) (hs : step s op = .ok (r, s')) (b : Block)
    (hb : b ∈ s.live) (hb' : b ∈ s'.live)
    (hw : ∀ p bs, op = .write p bs → Spec.Disjoint b ⟨p, bs.length⟩) :
    content s'.arena b = content s.arena b := by
  obtain ⟨r', s'', hs', _, hf⟩ := step_ok h.inv op hg
  rw [hs] at hs'
  cases hs'
  exact hf b hb' hb hw

/-- **C16 (partial).** A fresh `alloc_n` block is all zero bytes, and a `dup_str` block holds the
text and its terminator. -/
theorem arena_fresh_contents_partial (cap : Nat) (s s' : St) (p : Nat) (h : Reach cap s) :
    (∀ sz count, sz * count < 2 ^ 63 → step s (.allocN sz count) = .ok (some p, s') →
      content s'.arena ⟨p, sz * count⟩ = List.replicate (sz * count) (some 0)) ∧
    (∀ bs : List Byte, bs.length < 2 ^ 62 → step s (.dupStr bs) = .ok (some p, s') →
      Str.readC (s'.arena.mem.drop p) = .ok (Str.Spec.lit bs)) := by
  have hi := h.inv
  have hml := hi.mem_len
  constructor
  · intro sz count hsz hs
    have hm : sz * count % W = sz * count := Nat.mod_eq_of_lt (by unfold W; omega)
    simp only [step, allocN, hm] at hs
    rcases allocBytes_cases hi (sz * count) hsz with he | ⟨q, he, h1, h2, h3⟩
    · rw [he] at hs; cases hs
    · rw [he] at hs
      obtain ⟨m', hm', hl, hc, hf⟩ := memset_ok s.arena.mem q (sz * count) 0 (by omega)
      simp only [hm', Res.ok_bind] at hs
      cases hs
      exact hc
  · intro bs hbs hs
    have hll : (Str.Spec.lit bs).length ≤ bs.length := (List.takeWhile_prefix _).length_le
    have hm : ((Str.Spec.lit bs).length + 1) % W = (Str.Spec.lit bs).length + 1 :=
      Nat.mod_eq_of_lt (by unfold W; omega)
    simp only [step, dupStr, (cmem_ctext bs).strlen, Res.ok_bind, hm] at hs
    rcases allocBytes_cases hi ((Str.Spec.lit bs).length + 1) (by omega) with
      he | ⟨q, he, h1, h2, h3⟩
    · rw [he] at hs; cases hs
    · rw [he] at hs
      obtain ⟨m', hm', hl, hc, hf⟩ := memcpy_ok s.arena.mem (cmem bs) q
        ((Str.Spec.lit bs).length + 1) (by omega) (by simp [cmem]; omega)
      simp only [hm', Res.ok_bind] at hs
      cases hs
      obtain ⟨h0, rest, hr⟩ := cmem_ctext bs
      have : (cmem bs).take ((Str.Spec.lit bs).length + 1) = (Str.Spec.lit bs).map some ++ [some 0] := by
        rw [hr, List.take_append, List.take_of_length_le (by simp)]
        simp
      rw [this] at hc
      apply CText.readC
      refine ⟨h0, (m'.drop p).drop ((Str.Spec.lit bs).length + 1), ?_⟩
      conv => lhs; rw [← List.take_append_drop ((Str.Spec.lit bs).length + 1) (m'.drop p)]
      rw [hc]; simp

/-- Calls made between saving and restoring a mark: no reset, no restore below the mark, no empty
requests. -/
def Above (mark : Nat) : Op → Prop
  | .restore m => mark ≤ m
  | .reset => False
  | .allocBytes size => 0 < size
  | .allocN sz count => 0 < sz * count
  | _ => True

/-- **C16 (partial).** Restoring a saved mark gives back exactly the blocks that were held when the
mark was saved.  Same guard as above. -/
theorem arena_restore_exact_partial (cap : Nat) (s : St) (h : Reach cap s) (ops : List Op)
    (hg : Guard s ops) (ha : ∀ op ∈ ops, Above s.arena.used op) :
    ∃ s' s'', run s ops = .ok s' ∧ step s' (.restore s.arena.used) = .ok (none, s'') ∧
      s''.live = s.live ∧ s''.arena.used = s.arena.used := by
  -- the list of live blocks is: blocks starting at or above the mark, then the old ones
  have key : ∀ (ops : List Op) (t : St), Inv cap t → Guard t ops →
      (∀ op ∈ ops, Above s.arena.used op) → s.arena.used ≤ t.arena.used →
      (t.live.filter (fun b => b.start + b.size ≤ s.arena.used) = s.live) →
      (∀ b ∈ t.live, b.start + b.size ≤ s.arena.used ∨ s.arena.used ≤ b.start) →
      ∃ t', run t ops = .ok t' ∧ s.arena.used ≤ t'.arena.used ∧
        t'.live.filter (fun b => b.start + b.size ≤ s.arena.used) = s.live := by
    intro ops
    induction ops with
    | nil => intro t _ _ _ hu hl _; exact ⟨t, rfl, hu, hl⟩
    | cons op ops ih =>
      intro t hi hg ha hu hl hs
      obtain ⟨r, t', hst, hi', _⟩ := step_ok hi op hg.1
      have hop := ha op (by simp)
      suffices hsuf : s.arena.used ≤ t'.arena.used ∧
          t'.live.filter (fun b => b.start + b.size ≤ s.arena.used) = s.live ∧
          (∀ b ∈ t'.live, b.start + b.size ≤ s.arena.used ∨ s.arena.used ≤ b.start) by
        obtain ⟨t'', hr, h1, h2⟩ := ih t' hi' (hg.2 r t' hst) (fun o ho => ha o (by simp [ho]))
          hsuf.1 hsuf.2.1 hsuf.2.2
        exact ⟨t'', by simp only [run, hst, Res.ok_bind, hr], h1, h2⟩
      have newBlock : ∀ p size, t.arena.used ≤ p → 0 < size →
          s.arena.used ≤ p + size ∧
          (⟨p, size⟩ :: t.live).filter (fun b => b.start + b.size ≤ s.arena.used) = s.live ∧
          (∀ b ∈ (⟨p, size⟩ :: t.live : List Block),
            b.start + b.size ≤ s.arena.used ∨ s.arena.used ≤ b.start) := by
        intro p size hp hsz
        refine ⟨by omega, ?_, ?_⟩
        · rw [List.filter_cons_of_neg (by simp; omega), hl]
        · intro b hb
          rw [List.mem_cons] at hb
          rcases hb with hb | hb
          · subst hb; exact .inr (by simp only; omega)
          · exact hs b hb
      cases op with
      | allocBytes size =>
        simp only [step] at hst
        rcases allocBytes_cases hi size hg.1 with he | ⟨p, he, h1, h2, h3⟩
        · rw [he] at hst; cases hst; exact ⟨hu, hl, hs⟩
        · rw [he] at hst; cases hst; exact newBlock p size h1 hop
      | allocN sz count =>
        have hg' : sz * count < 2 ^ 63 := hg.1
        have hm : sz * count % W = sz * count := Nat.mod_eq_of_lt (by unfold W; omega)
        simp only [step, allocN, hm] at hst
        rcases allocBytes_cases hi (sz * count) hg.1 with he | ⟨p, he, h1, h2, h3⟩
        · rw [he] at hst; cases hst; exact ⟨hu, hl, hs⟩
        · rw [he] at hst
          obtain ⟨m', hm', _⟩ := memset_ok t.arena.mem p (sz * count) 0
            (by have := hi.mem_len; omega)
          simp only [hm', Res.ok_bind] at hst
          cases hst
          exact newBlock p _ h1 hop
      | dupStr bs =>
        have hg' : bs.length < 2 ^ 62 := hg.1
        have hll : (Str.Spec.lit bs).length ≤ bs.length := (List.takeWhile_prefix _).length_le
        have hm : ((Str.Spec.lit bs).length + 1) % W = (Str.Spec.lit bs).length + 1 :=
          Nat.mod_eq_of_lt (by unfold W; omega)
        simp only [step, dupStr, (cmem_ctext bs).strlen, Res.ok_bind, hm] at hst
        rcases allocBytes_cases hi ((Str.Spec.lit bs).length + 1) (by omega) with
          he | ⟨p, he, h1, h2, h3⟩
        · rw [he] at hst; cases hst; exact ⟨hu, hl, hs⟩
        · rw [he] at hst
          obtain ⟨m', hm', _⟩ := memcpy_ok t.arena.mem (cmem bs) p
            ((Str.Spec.lit bs).length + 1) (by have := hi.mem_len; omega) (by simp [cmem]; omega)
          simp only [hm', Res.ok_bind] at hst
          cases hst
          exact newBlock p _ h1 (by omega)
      | write p bs =>
        simp only [step] at hst
        cases hc : Mem.memcpy t.arena.mem p (bs.map some) 0 bs.length with
        | ok m => rw [hc] at hst; cases hst; exact ⟨hu, hl, hs⟩
        | panic => rw [hc] at hst; cases hst
        | ub => rw [hc] at hst; cases hst
      | restore mark =>
        have hop' : s.arena.used ≤ mark := hop
        simp only [step, restore] at hst
        by_cases hmk : mark ≤ t.arena.used
        · simp only [hmk, if_true] at hst
          cases hst
          refine ⟨hop', ?_, fun b hb => hs b (List.mem_filter.1 hb).1⟩
          rw [List.filter_filter, ← hl]
          apply List.filter_congr
          intro b _
          simp only [Bool.and_eq_left_iff_imp, decide_eq_true_eq]
          omega
        · simp only [hmk, if_false] at hst
          cases hst
          exact ⟨hu, hl, hs⟩
      | reset => exact hop.elim
  have hi := h.inv
  have hfilter : s.live.filter (fun b => b.start + b.size ≤ s.arena.used) = s.live := by
    rw [List.filter_eq_self]
    intro b hb
    simpa using hi.live_le b hb
  obtain ⟨t', hr, hu, hl⟩ := key ops s hi hg ha (Nat.le_refl _) hfilter
    (fun b hb => .inl (hi.live_le b hb))
  refine ⟨t', ⟨restore t'.arena s.arena.used,
    t'.live.filter fun b => b.start + b.size ≤ s.arena.used⟩, hr, ?_, hl, ?_⟩
  · simp only [step, hu, if_true]
  · simp only [restore, hu, if_true]

/-- Blocks of a finished history. -/
def liveOf (r : Res St) : Option (List Block) := match r with | .ok s => some s.live | _ => none

/-- Non-vacuity: a history meeting the guard, with its blocks. -/
example : liveOf (run ⟨new 100, []⟩ [.allocN 3 3, .dupStr [104, 105], .allocBytes 20,
    .write 17 [1, 2], .restore 19, .allocBytes 5]) = some [⟨24, 5⟩, ⟨16, 3⟩, ⟨0, 9⟩] := by
  decide +kernel

example : Guard ⟨new 100, []⟩ [.allocN 3 3, .write 2 [7]] := by
  refine ⟨by show 3 * 3 < 2 ^ 63; omega, ?_⟩
  intro r s' hs
  refine ⟨⟨⟨0, 9⟩, ?_, by simp⟩, fun _ _ _ => trivial⟩
  have : liveOf (.ok s') = some [⟨0, 9⟩] := by
    have h : (match step ⟨new 100, []⟩ (.allocN 3 3) with | .ok (_, s) => some s.live | _ => none)
      = some [⟨0, 9⟩] := by decide +kernel
    rw [hs] at h
    exact h
  have h' : s'.live = [⟨0, 9⟩] := Option.some.inj this
  rw [h']; simp

/-- **C16 is false for huge sizes.** In an arena of 64 bytes with one 16-byte block, a request for
2^64 - 8 bytes succeeds, and the next 8-byte request returns memory of the first block. -/
theorem arena_wrap_violated :
    ∃ live, liveOf (run ⟨new 64, []⟩ [.allocBytes 16, .allocBytes (2 ^ 64 - 8), .allocBytes 8])
      = some live ∧ ¬ Spec.Safe 64 live ∧
      (⟨8, 8⟩ : Block) ∈ live ∧ (⟨0, 16⟩ : Block) ∈ live := by
  refine ⟨[⟨8, 8⟩, ⟨16, 2 ^ 64 - 8⟩, ⟨0, 16⟩], by decide +kernel, ?_, by decide, by decide⟩
  intro h
  have := (h.1 ⟨16, 2 ^ 64 - 8⟩ (by decide)).2
  simp at this

/-- **C16 is false for `alloc_n` with a product of 2^64 or more.** 2^61 + 1 elements of 8 bytes are
"allocated" in an arena of 64 bytes. -/
theorem arena_alloc_n_violated :
    liveOf (run ⟨new 64, []⟩ [.allocN 8 (2 ^ 61 + 1)]) = some [⟨0, 8 * (2 ^ 61 + 1)⟩] ∧
    ¬ Spec.Safe 64 [⟨0, 8 * (2 ^ 61 + 1)⟩] := by
  refine ⟨by decide +kernel, ?_⟩
  intro h
  have := (h.1 ⟨0, 8 * (2 ^ 61 + 1)⟩ (by decide)).2
  simp at this

end Verif.StdArena
