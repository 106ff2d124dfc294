import Verif.HashMap.Model

/-! Helper lemmas for the hash map. -/

namespace Verif.HashMap
open Verif

set_option linter.unusedSectionVars false

variable {κ V : Type} [DecidableEq κ] {hash : κ → Nat}

/-- slot `p` holds the live entry `(k, v)` -/
def Live (t : Tab κ V) (p : Nat) (k : κ) (v : V) : Prop :=
  ∃ s id, t.slots[p]? = some s ∧ s.occ = true ∧ s.del = false ∧ s.key = some (k, id) ∧
    s.val = some v

/-- slot `p` holds a live entry with key `k` -/
def Hit (t : Tab κ V) (p : Nat) (k : κ) : Prop := ∃ v, Live t p k v

/-- slot `p` is marked occupied (live or deleted) -/
def Occ (t : Tab κ V) (p : Nat) : Prop := ∃ s, t.slots[p]? = some s ∧ s.occ = true

/-- the entry of a live slot -/
def entry (s : Slot κ V) : Option (κ × V) :=
  if s.occ && !s.del then
    match s.key, s.val with
    | some (k, _), some v => some (k, v)
    | _, _ => none
  else none

/-- the key block of a live slot -/
def sid (s : Slot κ V) : Option Nat := if s.occ && !s.del then s.key.map Prod.snd else none

/-- live entries in slot order -/
def lives (ss : List (Slot κ V)) : List (κ × V) := ss.filterMap entry

/-- key blocks of live slots -/
def ids (ss : List (Slot κ V)) : List Nat := ss.filterMap sid

/-- live slots carry a key and a value -/
def Good (ss : List (Slot κ V)) : Prop :=
  ∀ s ∈ ss, s.occ = true → s.del = false → s.key.isSome ∧ s.val.isSome

/-- The table `t` represents the dictionary `l`. -/
structure Holds (hash : κ → Nat) (t : Tab κ V) (l : List (κ × V)) : Prop where
  size : t.slots.length = t.cap
  chain : ∀ p k v, Live t p k v → ∃ d, d < t.cap ∧ (hash k % t.cap + d) % t.cap = p ∧
    ∀ j, j < d → Occ t ((hash k % t.cap + j) % t.cap)
  perm : (lives t.slots).Perm l
  nodup : (l.map Prod.fst).Nodup
  len : t.len = l.length
  good : Good t.slots
  idnd : (ids t.slots ++ t.freed).Nodup
  idlt : ∀ i ∈ ids t.slots ++ t.freed, i < t.next

theorem entry_live {s : Slot κ V} {k : κ} {id : Nat} {v : V} (h1 : s.occ = true)
    (h2 : s.del = false) (h3 : s.key = some (k, id)) (h4 : s.val = some v) :
    entry s = some (k, v) := by simp [entry, h1, h2, h3, h4]

theorem entry_eq_some {s : Slot κ V} {k : κ} {v : V} : entry s = some (k, v) ↔
    ∃ id, s.occ = true ∧ s.del = false ∧ s.key = some (k, id) ∧ s.val = some v := by
  constructor
  · intro h
    unfold entry at h
    split at h
    · rename_i hc
      simp at hc
      split at h
      · rename_i k' id v' hk hv
        simp at h
        exact ⟨id, hc.1, hc.2, by rw [hk, h.1], by rw [hv, h.2]⟩
      · simp at h
    · simp at h
  · rintro ⟨id, h1, h2, h3, h4⟩; exact entry_live h1 h2 h3 h4

theorem mem_lives_iff {t : Tab κ V} {k : κ} {v : V} :
    (k, v) ∈ lives t.slots ↔ ∃ p, Live t p k v := by
  unfold lives
  rw [List.mem_filterMap]
  constructor
  · rintro ⟨s, hs, h⟩
    obtain ⟨id, h1, h2, h3, h4⟩ := entry_eq_some.1 h
    obtain ⟨p, hp⟩ := List.mem_iff_getElem?.1 hs
    exact ⟨p, s, id, hp, h1, h2, h3, h4⟩
  · rintro ⟨p, s, id, hp, h1, h2, h3, h4⟩
    exact ⟨s, List.mem_of_getElem? hp, entry_live h1 h2 h3 h4⟩

theorem Holds.hit_iff {t : Tab κ V} {l : List (κ × V)} (h : Holds hash t l) {k : κ} :
    k ∈ l.map Prod.fst ↔ ∃ p, Hit t p k := by
  rw [List.mem_map]
  constructor
  · rintro ⟨⟨k', v⟩, hm, rfl⟩
    obtain ⟨p, hp⟩ := mem_lives_iff.1 (h.perm.mem_iff.2 hm)
    exact ⟨p, v, hp⟩
  · rintro ⟨p, v, hp⟩
    exact ⟨(k, v), h.perm.mem_iff.1 (mem_lives_iff.2 ⟨p, hp⟩), rfl⟩

theorem slotHit_spec {t : Tab κ V} {l : List (κ × V)} (h : Holds hash t l) {p : Nat}
    {s : Slot κ V} (hs : t.slots[p]? = some s) (ho : s.occ = true) (k : κ) :
    ∃ b, slotHit t s k = .ok b ∧ (b = true ↔ Hit t p k) := by
  unfold slotHit
  have hmem := List.mem_of_getElem? hs
  by_cases hd : s.del = true
  · simp only [hd, Bool.not_true, Bool.false_eq_true, if_false]
    refine ⟨false, rfl, ?_⟩
    simp only [Bool.false_eq_true, false_iff]
    rintro ⟨v, s', id, g1, _, g3, _⟩
    rw [hs] at g1; cases g1; rw [hd] at g3; simp at g3
  · have hd : s.del = false := by simpa using hd
    simp only [hd, Bool.not_false, if_true]
    obtain ⟨hk, hv⟩ := h.good s hmem ho hd
    obtain ⟨⟨k', id⟩, hk⟩ := Option.isSome_iff_exists.1 hk
    obtain ⟨v, hv⟩ := Option.isSome_iff_exists.1 hv
    have hid : id ∉ t.freed := by
      have hin : id ∈ ids t.slots := by
        unfold ids; rw [List.mem_filterMap]
        exact ⟨s, hmem, by simp [sid, ho, hd, hk]⟩
      intro hc
      exact (List.nodup_append.1 h.idnd).2.2 id hin id hc rfl
    unfold keyEq
    rw [hk]
    simp only [hid, if_false]
    refine ⟨_, rfl, ?_⟩
    rw [decide_eq_true_iff]
    constructor
    · rintro rfl; exact ⟨v, s, id, hs, ho, hd, hk, hv⟩
    · rintro ⟨v', s', id', g1, _, _, g4, _⟩
      rw [hs] at g1; cases g1
      rw [hk] at g4; simp at g4; exact g4.1

theorem getLoop_spec {t : Tab κ V} {l : List (κ × V)} (hh : Holds hash t l) (k : κ) {h : Nat}
    (hlt : h < t.cap) : ∀ (f j : Nat), j < t.cap →
    (getLoop t k h f ((h + j) % t.cap) = .hang ∧ f < t.cap - j) ∨
    (∃ d v, j ≤ d ∧ d < t.cap ∧ Live t ((h + d) % t.cap) k v ∧
      getLoop t k h f ((h + j) % t.cap) = .ok (some v)) ∨
    (getLoop t k h f ((h + j) % t.cap) = .ok none ∧
      ¬ ∃ d, j ≤ d ∧ d < t.cap ∧ Hit t ((h + d) % t.cap) k ∧
        ∀ i, j ≤ i → i < d → Occ t ((h + i) % t.cap)) := by
  intro f
  induction f with
  | zero => intro j hj; exact .inl ⟨rfl, by omega⟩
  | succ f ih =>
    intro j hj
    have hb : (h + j) % t.cap < t.slots.length := by
      rw [hh.size]; exact Nat.mod_lt _ (by omega)
    unfold getLoop
    rw [List.getElem?_eq_getElem hb]
    simp only
    generalize hs : t.slots[(h + j) % t.cap] = s
    have hget : t.slots[(h + j) % t.cap]? = some s := by rw [List.getElem?_eq_getElem hb, hs]
    by_cases ho : s.occ = true
    · simp only [ho, Bool.not_true, Bool.false_eq_true, if_false]
      obtain ⟨b, hb1, hb2⟩ := slotHit_spec hh hget ho k
      rw [hb1]
      simp only [Run.ok_bind]
      cases b
      · simp only [Bool.false_eq_true, if_false]
        have hnh : ¬ Hit t ((h + j) % t.cap) k := by simpa using hb2
        rw [Probe.next_idx]
        by_cases hback : (h + (j + 1)) % t.cap = h
        · have := (Probe.back_iff hlt hj).1 hback
          simp only [hback, if_true]
          refine .inr (.inr ⟨trivial, ?_⟩)
          rintro ⟨d, h1, h2, h3, _⟩
          have : d = j := by omega
          subst this; exact hnh h3
        · have hne : j + 1 ≠ t.cap := fun hc => hback ((Probe.back_iff hlt hj).2 hc)
          simp only [hback, if_false]
          rcases ih (j + 1) (by omega) with ⟨g, g'⟩ | ⟨d, v, h1, h2, h3, h4⟩ | ⟨h1, h2⟩
          · exact .inl ⟨g, by omega⟩
          · exact .inr (.inl ⟨d, v, by omega, h2, h3, h4⟩)
          · refine .inr (.inr ⟨h1, ?_⟩)
            rintro ⟨d, g1, g2, g3, g4⟩
            have : d ≠ j := by intro hc; subst hc; exact hnh g3
            exact h2 ⟨d, by omega, g2, g3, fun i i1 i2 => g4 i (by omega) i2⟩
      · simp only [if_true]
        obtain ⟨v, hv⟩ := hb2.1 rfl
        obtain ⟨s', id, g1, g2, g3, g4, g5⟩ := id hv
        rw [hget] at g1; cases g1
        rw [g5]
        exact .inr (.inl ⟨j, v, Nat.le_refl _, hj, hv, rfl⟩)
    · have ho' : s.occ = false := by simpa using ho
      simp only [ho', Bool.not_false, if_true]
      refine .inr (.inr ⟨trivial, ?_⟩)
      rintro ⟨d, h1, h2, ⟨v, s', id, g1, g2, _⟩, h4⟩
      by_cases hd : d = j
      · subst hd; rw [hget] at g1; cases g1; exact ho g2
      · obtain ⟨s'', o1, o2⟩ := h4 j (Nat.le_refl _) (by omega)
        rw [hget] at o1; cases o1; exact ho o2

theorem lookup_of_mem {l : List (κ × V)} (hn : (l.map Prod.fst).Nodup) {k : κ} {v : V}
    (hm : (k, v) ∈ l) : l.lookup k = some v := by
  induction l with
  | nil => simp at hm
  | cons e l ih =>
    obtain ⟨k', v'⟩ := e
    simp only [List.map_cons, List.nodup_cons] at hn
    rw [List.lookup_cons]
    rcases List.mem_cons.1 hm with h | h
    · cases h; simp
    · have : k ≠ k' := by
        rintro rfl
        exact hn.1 (List.mem_map.2 ⟨(k, v), h, rfl⟩)
      have : (k == k') = false := by simpa using this
      rw [this]
      exact ih hn.2 h

theorem lookup_none {l : List (κ × V)} {k : κ} (hm : k ∉ l.map Prod.fst) :
    l.lookup k = none := by
  induction l with
  | nil => rfl
  | cons e l ih =>
    obtain ⟨k', v'⟩ := e
    simp only [List.map_cons, List.mem_cons, not_or] at hm
    rw [List.lookup_cons]
    have : (k == k') = false := by simpa using hm.1
    rw [this]
    exact ih hm.2

theorem get_holds {t : Tab κ V} {l : List (κ × V)} (h : Holds hash t l) (k : κ) (f : Nat) :
    (get hash f t k = .hang ∧ f < t.cap) ∨ get hash f t k = .ok (l.lookup k) := by
  unfold get
  by_cases hc : t.cap = 0
  · have hs : t.slots = [] := by rw [← List.length_eq_zero_iff, h.size, hc]
    have hl : l = [] := by
      have := h.perm
      rw [hs] at this
      simpa [lives] using this
    simp [hc, hl]
  · simp only [hc, if_false]
    have hlt : hash k % t.cap < t.cap := Nat.mod_lt _ (by omega)
    have := getLoop_spec h k hlt f 0 (by omega)
    rw [Nat.add_zero, Nat.mod_eq_of_lt hlt] at this
    rcases this with g | ⟨d, v, h1, h2, h3, h4⟩ | ⟨h1, h2⟩
    · exact .inl g
    · refine .inr ?_
      rw [h4, lookup_of_mem h.nodup (h.perm.mem_iff.1 (mem_lives_iff.2 ⟨_, h3⟩))]
    · refine .inr ?_
      rw [h1, lookup_none]
      intro hk
      obtain ⟨p, v, hp⟩ := h.hit_iff.1 hk
      obtain ⟨d, c1, c2, c3⟩ := h.chain p k v hp
      exact h2 ⟨d, Nat.zero_le _, c1, ⟨v, by rw [c2]; exact hp⟩, fun i _ hi => c3 i hi⟩

/-- the probe of `put`/`remove` stops at slot `p` -/
def Stop (t : Tab κ V) (p : Nat) (k : κ) : Prop := Hit t p k ∨ ¬ Occ t p

theorem putLoop_spec {t : Tab κ V} {l : List (κ × V)} (hh : Holds hash t l) (k : κ) {h : Nat}
    (hlt : h < t.cap) : ∀ (f j : Nat),
    (putLoop t k f ((h + j) % t.cap) = .hang ∧
      ∀ e, j ≤ e → e < j + f → ¬ Stop t ((h + e) % t.cap) k) ∨
    (∃ d, j ≤ d ∧ putLoop t k f ((h + j) % t.cap) = .ok ((h + d) % t.cap) ∧
      Stop t ((h + d) % t.cap) k ∧ ∀ i, j ≤ i → i < d → ¬ Stop t ((h + i) % t.cap) k) := by
  intro f
  induction f with
  | zero => intro j; exact .inl ⟨rfl, by intro e h1 h2; omega⟩
  | succ f ih =>
    intro j
    have hb : (h + j) % t.cap < t.slots.length := by
      rw [hh.size]; exact Nat.mod_lt _ (by omega)
    unfold putLoop
    rw [List.getElem?_eq_getElem hb]
    simp only
    generalize hs : t.slots[(h + j) % t.cap] = s
    have hget : t.slots[(h + j) % t.cap]? = some s := by rw [List.getElem?_eq_getElem hb, hs]
    by_cases ho : s.occ = true
    · simp only [ho, Bool.not_true, Bool.false_eq_true, if_false]
      obtain ⟨b, hb1, hb2⟩ := slotHit_spec hh hget ho k
      rw [hb1]
      simp only [Run.ok_bind]
      cases b
      · simp only [Bool.false_eq_true, if_false]
        have hnh : ¬ Stop t ((h + j) % t.cap) k := by
          rintro (hc | hc)
          · simp at hb2; exact hb2 hc
          · exact hc ⟨s, hget, ho⟩
        rw [Probe.next_idx]
        rcases ih (j + 1) with ⟨g, g'⟩ | ⟨d, h1, h2, h3, h4⟩
        · refine .inl ⟨g, fun e e1 e2 => ?_⟩
          by_cases hc : e = j
          · subst hc; exact hnh
          · exact g' e (by omega) (by omega)
        · refine .inr ⟨d, by omega, h2, h3, fun i i1 i2 => ?_⟩
          by_cases hc : i = j
          · subst hc; exact hnh
          · exact h4 i (by omega) i2
      · simp only [if_true]
        exact .inr ⟨j, Nat.le_refl _, rfl, .inl (hb2.1 rfl), by intro i h1 h2; omega⟩
    · have ho' : s.occ = false := by simpa using ho
      simp only [ho', Bool.not_false, if_true]
      refine .inr ⟨j, Nat.le_refl _, rfl, .inr ?_, by intro i h1 h2; omega⟩
      rintro ⟨s', g1, g2⟩
      rw [hget] at g1; cases g1; exact ho g2

/-- What `put`'s search finds. -/
theorem search_spec {t : Tab κ V} {l : List (κ × V)} (hh : Holds hash t l) (k : κ)
    (hc : 0 < t.cap) (f : Nat) :
    (putLoop t k f (hash k % t.cap) = .hang ∧
      ((k ∈ l.map Prod.fst ∨ ∃ p, p < t.cap ∧ ¬ Occ t p) → f < t.cap)) ∨
    (∃ d, d < t.cap ∧ putLoop t k f (hash k % t.cap) = .ok ((hash k % t.cap + d) % t.cap) ∧
      (k ∈ l.map Prod.fst → Hit t ((hash k % t.cap + d) % t.cap) k) ∧
      (k ∉ l.map Prod.fst → ¬ Occ t ((hash k % t.cap + d) % t.cap)) ∧
      ∀ i, i < d → Occ t ((hash k % t.cap + i) % t.cap)) := by
  have hlt : hash k % t.cap < t.cap := Nat.mod_lt _ hc
  have := putLoop_spec hh k hlt f 0
  rw [Nat.add_zero, Nat.mod_eq_of_lt hlt] at this
  generalize hg : hash k % t.cap = h at *
  rcases this with ⟨g1, g2⟩ | ⟨d, h1, h2, h3, h4⟩
  · refine .inl ⟨g1, fun hstop => ?_⟩
    have : ∃ p, p < t.cap ∧ Stop t p k := by
      rcases hstop with hk | ⟨p, hp, ho⟩
      · obtain ⟨p, hp⟩ := hh.hit_iff.1 hk
        refine ⟨p, ?_, .inl hp⟩
        obtain ⟨v, s, id, hs, _⟩ := hp
        rw [← hh.size]; exact (List.getElem?_eq_some_iff.1 hs).1
      · exact ⟨p, hp, .inr ho⟩
    obtain ⟨p, hp, hst⟩ := this
    obtain ⟨e, he, hep⟩ := Probe.reach hlt hp
    refine Nat.lt_of_not_le fun hle => g2 e (Nat.zero_le _) (by omega) (by rw [hep]; exact hst)
  · have hd : d < t.cap := by
      refine Nat.lt_of_not_le fun hle => h4 (d - t.cap) (Nat.zero_le _) (by omega) ?_
      have : h + d = h + (d - t.cap) + t.cap := by omega
      rw [this, Nat.add_mod_right] at h3
      exact h3
    have hocc : ∀ i, i < d → Occ t ((h + i) % t.cap) := by
      intro i hi
      have := h4 i (Nat.zero_le _) hi
      exact Classical.byContradiction fun hc => this (.inr hc)
    refine .inr ⟨d, hd, h2, ?_, ?_, hocc⟩
    · intro hk
      rcases h3 with h3 | h3
      · exact h3
      · exfalso
        obtain ⟨p, v, hp⟩ := hh.hit_iff.1 hk
        obtain ⟨d', c1, c2, c3⟩ := hh.chain p k v hp
        rw [hg] at c2 c3
        rcases Nat.lt_trichotomy d' d with hl | hl | hl
        · exact h4 d' (Nat.zero_le _) hl (.inl ⟨v, by rw [c2]; exact hp⟩)
        · subst hl
          obtain ⟨s, id, hs, ho, _⟩ := hp
          exact h3 ⟨s, by rw [c2]; exact hs, ho⟩
        · exact h3 (c3 d hl)
    · intro hk
      rcases h3 with h3 | h3
      · exact absurd (hh.hit_iff.2 ⟨_, h3⟩) hk
      · exact h3

theorem set_split {β : Type} {ss : List β} {p : Nat} {s : β} (hs : ss[p]? = some s) (x : β) :
    ss = ss.take p ++ s :: ss.drop (p + 1) ∧ ss.set p x = ss.take p ++ x :: ss.drop (p + 1) := by
  obtain ⟨hlt, he⟩ := List.getElem?_eq_some_iff.1 hs
  refine ⟨?_, ?_⟩
  · rw [← he, ← List.drop_eq_getElem_cons hlt, List.take_append_drop]
  · rw [List.set_eq_take_append_cons_drop, if_pos hlt]

/-- Effect of changing one slot on any `filterMap` of the slots. -/
theorem filterMap_set {β γ : Type} (g : β → Option γ) {ss : List β} {p : Nat} {s : β}
    (hs : ss[p]? = some s) (x : β) : ∃ A B, ss.filterMap g = A ++ (g s).toList ++ B ∧
      (ss.set p x).filterMap g = A ++ (g x).toList ++ B := by
  obtain ⟨e1, e2⟩ := set_split hs x
  refine ⟨(ss.take p).filterMap g, (ss.drop (p + 1)).filterMap g, ?_, ?_⟩
  · conv => lhs; rw [e1]
    rw [List.filterMap_append, List.filterMap_cons]
    cases g s <;> simp
  · rw [e2, List.filterMap_append, List.filterMap_cons]
    cases g x <;> simp

theorem occ_set {t : Tab κ V} {p : Nat} {x : Slot κ V} {n c m : Nat} {fr : List Nat}
    (hx : x.occ = true) (hp : p < t.slots.length) {q : Nat} (h : Occ t q) :
    Occ ⟨t.slots.set p x, n, c, m, fr⟩ q := by
  obtain ⟨s, h1, h2⟩ := h
  by_cases hq : q = p
  · subst hq; exact ⟨x, by simp [hp], hx⟩
  · exact ⟨s, by simp only; rw [List.getElem?_set_ne (Ne.symm hq)]; exact h1, h2⟩

/-- Storing at a never-occupied slot. -/
theorem putAt_new {t : Tab κ V} {l : List (κ × V)} (h : Holds hash t l) {k : κ} (v : V)
    (hk : k ∉ l.map Prod.fst) {d : Nat} (hd : d < t.cap)
    (hno : ¬ Occ t ((hash k % t.cap + d) % t.cap))
    (hocc : ∀ i, i < d → Occ t ((hash k % t.cap + i) % t.cap)) :
    ∃ t', putAt t k v ((hash k % t.cap + d) % t.cap) = .ok t' ∧ Holds hash t' ((k, v) :: l) ∧
      t'.cap = t.cap ∧ t'.freed = t.freed ∧ t'.next = t.next + 1 ∧
      (ids t'.slots).Perm (t.next :: ids t.slots) ∧
      t'.slots.countP (·.occ) = t.slots.countP (·.occ) + 1 := by
  generalize hp : (hash k % t.cap + d) % t.cap = p at *
  have hlt : p < t.slots.length := by rw [h.size, ← hp]; exact Nat.mod_lt _ (by omega)
  have hs : t.slots[p]? = some t.slots[p] := List.getElem?_eq_getElem hlt
  generalize t.slots[p] = s at hs
  have hso : s.occ = false := by
    cases hc : s.occ
    · rfl
    · exact absurd ⟨s, hs, hc⟩ hno
  unfold putAt
  rw [hs]
  simp only [hso, Bool.not_false, Bool.true_or, if_true]
  refine ⟨_, rfl, ?_, rfl, rfl, rfl, ?_, ?_⟩
  rotate_left
  · obtain ⟨A, B, e1, e2⟩ := filterMap_set sid hs ⟨true, false, some (k, t.next), some v⟩
    simp only [ids]
    rw [e1, e2]
    simp only [sid, hso, Bool.false_and, Bool.false_eq_true, if_false, Bool.not_false, Bool.and_self,
      if_true, Option.map_some, Option.toList_some, Option.toList_none, List.append_nil,
      List.append_assoc, List.singleton_append]
    exact List.perm_middle
  · obtain ⟨e1, e2⟩ := set_split hs ⟨true, false, some (k, t.next), some v⟩
    simp only
    rw [e2]
    conv => rhs; rw [e1]
    simp [List.countP_cons, hso]; omega
  have hl : (lives (t.slots.set p ⟨true, false, some (k, t.next), some v⟩)).Perm ((k, v) :: l) := by
    obtain ⟨A, B, e1, e2⟩ := filterMap_set entry hs ⟨true, false, some (k, t.next), some v⟩
    have := h.perm
    unfold lives at this ⊢
    rw [e1] at this
    rw [e2]
    simp only [entry, hso, Bool.false_and, Bool.false_eq_true, if_false, Bool.not_false, Bool.and_self,
      if_true, Option.toList_some, Option.toList_none, List.append_nil,
      List.append_assoc, List.singleton_append] at this ⊢
    exact List.perm_middle.trans (List.Perm.cons _ this)
  have hi : (ids (t.slots.set p ⟨true, false, some (k, t.next), some v⟩)).Perm
      (t.next :: ids t.slots) := by
    obtain ⟨A, B, e1, e2⟩ := filterMap_set sid hs ⟨true, false, some (k, t.next), some v⟩
    unfold ids
    rw [e1, e2]
    simp only [sid, hso, Bool.false_and, Bool.false_eq_true, if_false, Bool.not_false, Bool.and_self,
      if_true, Option.map_some, Option.toList_some, Option.toList_none, List.append_nil,
      List.append_assoc, List.singleton_append]
    exact List.perm_middle
  constructor
  · simp [h.size]
  · rintro q k' v' ⟨s', id, g1, g2, g3, g4, g5⟩
    simp only at g1 ⊢
    by_cases hq : q = p
    · subst hq
      rw [List.getElem?_set_self hlt] at g1; cases g1
      simp only [Option.some.injEq, Prod.mk.injEq] at g4
      rw [← g4.1]
      exact ⟨d, hd, hp, fun j hj => occ_set rfl hlt (hocc j hj)⟩
    · rw [List.getElem?_set_ne (Ne.symm hq)] at g1
      obtain ⟨d', c1, c2, c3⟩ := h.chain q k' v' ⟨s', id, g1, g2, g3, g4, g5⟩
      exact ⟨d', c1, c2, fun j hj => occ_set rfl hlt (c3 j hj)⟩
  · exact hl
  · rw [List.map_cons, List.nodup_cons]; exact ⟨hk, h.nodup⟩
  · simp [h.len]
  · intro s' hs' ho hd'
    rcases List.mem_or_eq_of_mem_set hs' with hm | hm
    · exact h.good s' hm ho hd'
    · subst hm; simp
  · simp only
    refine ((hi.append_right t.freed).nodup_iff).2 ?_
    rw [List.cons_append, List.nodup_cons]
    exact ⟨fun hc => Nat.lt_irrefl _ (h.idlt _ hc), h.idnd⟩
  · intro i hm
    simp only at hm ⊢
    rw [(hi.append_right t.freed).mem_iff, List.cons_append, List.mem_cons] at hm
    rcases hm with hm | hm
    · omega
    · have := h.idlt i hm; omega

/-- Overwriting the value of a present key. -/
theorem putAt_old {t : Tab κ V} {l : List (κ × V)} (h : Holds hash t l) {k : κ} (v : V) {p : Nat}
    (hhit : Hit t p k) :
    ∃ t', putAt t k v p = .ok t' ∧
      Holds hash t' (l.map (fun e => if e.1 = k then (k, v) else e)) ∧ t'.cap = t.cap ∧
      t'.freed = t.freed ∧ t'.next = t.next ∧ ids t'.slots = ids t.slots ∧
      t'.slots.countP (·.occ) = t.slots.countP (·.occ) := by
  obtain ⟨v0, s, id, hs, ho, hdl, hk, hv⟩ := hhit
  have hlt := (List.getElem?_eq_some_iff.1 hs).1
  unfold putAt
  rw [hs]
  simp only [ho, hdl, Bool.not_true, Bool.or_self, Bool.false_eq_true, if_false]
  have hi : ids (t.slots.set p ⟨true, false, s.key, some v⟩) = ids t.slots := by
    obtain ⟨A, B, e1, e2⟩ := filterMap_set sid hs ⟨true, false, s.key, some v⟩
    unfold ids
    rw [e1, e2]
    simp [sid, ho, hdl, hk]
  refine ⟨_, rfl, ?_, rfl, rfl, rfl, hi, ?_⟩
  rotate_left
  · obtain ⟨e1, e2⟩ := set_split hs ⟨true, false, s.key, some v⟩
    simp only
    rw [e2]
    conv => rhs; rw [e1]
    simp [List.countP_cons, ho]
  constructor
  · simp [h.size]
  · rintro q k' v' ⟨s', id', g1, g2, g3, g4, g5⟩
    simp only at g1 ⊢
    by_cases hq : q = p
    · subst hq
      rw [List.getElem?_set_self hlt] at g1; cases g1
      obtain ⟨d', c1, c2, c3⟩ := h.chain q k' v0 ⟨s, id', hs, ho, hdl, g4, hv⟩
      exact ⟨d', c1, c2, fun j hj => occ_set rfl hlt (c3 j hj)⟩
    · rw [List.getElem?_set_ne (Ne.symm hq)] at g1
      obtain ⟨d', c1, c2, c3⟩ := h.chain q k' v' ⟨s', id', g1, g2, g3, g4, g5⟩
      exact ⟨d', c1, c2, fun j hj => occ_set rfl hlt (c3 j hj)⟩
  · simp only
    obtain ⟨A, B, e1, e2⟩ := filterMap_set entry hs ⟨true, false, s.key, some v⟩
    have hp := h.perm.map (fun e : κ × V => if e.1 = k then (k, v) else e)
    have hnd : ((lives t.slots).map Prod.fst).Nodup := (h.perm.map _).nodup_iff.2 h.nodup
    unfold lives at hp hnd ⊢
    rw [e1] at hp hnd
    rw [e2]
    rw [entry_live ho hdl hk hv] at hp hnd
    rw [entry_live (s := ⟨true, false, s.key, some v⟩) rfl rfl hk rfl]
    simp only [Option.toList_some, List.append_assoc, List.singleton_append, List.map_append,
      List.map_cons, if_true] at hp hnd ⊢
    rw [List.nodup_append] at hnd
    have hA : ∀ e ∈ A, ¬ e.1 = k := by
      intro e he hc
      exact hnd.2.2 e.1 (List.mem_map_of_mem he) k (by simp) hc
    have hB : ∀ e ∈ B, ¬ e.1 = k := by
      intro e he hc
      have := (List.nodup_cons.1 hnd.2.1).1
      exact this (hc ▸ List.mem_map_of_mem he)
    have mA : A.map (fun e : κ × V => if e.1 = k then (k, v) else e) = A := by
      conv => rhs; rw [← List.map_id A]
      exact List.map_congr_left fun e he => by simp [hA e he]
    have mB : B.map (fun e : κ × V => if e.1 = k then (k, v) else e) = B := by
      conv => rhs; rw [← List.map_id B]
      exact List.map_congr_left fun e he => by simp [hB e he]
    rw [mA, mB] at hp
    exact hp
  · have : (l.map (fun e : κ × V => if e.1 = k then (k, v) else e)).map Prod.fst = l.map Prod.fst := by
      rw [List.map_map]
      refine List.map_congr_left fun e _ => ?_
      simp only [Function.comp]
      split
      · simp_all
      · rfl
    rw [this]; exact h.nodup
  · simp [h.len]
  · intro s' hs' ho' hd'
    rcases List.mem_or_eq_of_mem_set hs' with hm | hm
    · exact h.good s' hm ho' hd'
    · subst hm; simp [hk]
  · simp only; rw [hi]; exact h.idnd
  · intro i hm; simp only at hm ⊢; rw [hi] at hm; exact h.idlt i hm

/-- Removing the entry in slot `p`. -/
theorem kill_holds {t : Tab κ V} {l : List (κ × V)} (h : Holds hash t l) {p : Nat} {k : κ}
    {s : Slot κ V} {id : Nat} {v : V} (hs : t.slots[p]? = some s) (ho : s.occ = true)
    (hdl : s.del = false) (hk : s.key = some (k, id)) (hv : s.val = some v) :
    Holds hash ⟨t.slots.set p ⟨true, true, s.key, s.val⟩, t.len - 1, t.cap, t.next, id :: t.freed⟩
      (l.filter (fun e => e.1 ≠ k)) ∧
    (t.slots.set p ⟨true, true, s.key, s.val⟩).countP (·.occ) = t.slots.countP (·.occ) ∧
    l.length = (l.filter (fun e => e.1 ≠ k)).length + 1 := by
  have hlt := (List.getElem?_eq_some_iff.1 hs).1
  have hi : (ids t.slots).Perm (id :: ids (t.slots.set p ⟨true, true, s.key, s.val⟩)) := by
    obtain ⟨A, B, e1, e2⟩ := filterMap_set sid hs ⟨true, true, s.key, s.val⟩
    unfold ids
    rw [e1, e2]
    simp only [sid, ho, hdl, hk, Bool.not_false, Bool.and_self, if_true, Option.map_some,
      Option.toList_some, Bool.not_true, Bool.and_false, Bool.false_eq_true, if_false,
      Option.toList_none, List.append_nil, List.append_assoc, List.singleton_append]
    exact List.perm_middle
  have hperm : (lives (t.slots.set p ⟨true, true, s.key, s.val⟩)).Perm
      (l.filter (fun e => e.1 ≠ k)) ∧
      (lives t.slots).length = (lives (t.slots.set p ⟨true, true, s.key, s.val⟩)).length + 1 := by
    obtain ⟨A, B, e1, e2⟩ := filterMap_set entry hs ⟨true, true, s.key, s.val⟩
    have hp := h.perm.filter (fun e : κ × V => decide (e.1 ≠ k))
    have hnd : ((lives t.slots).map Prod.fst).Nodup := (h.perm.map _).nodup_iff.2 h.nodup
    unfold lives at hp hnd ⊢
    rw [e1] at hp hnd
    rw [e1, e2]
    have hz : entry (⟨true, true, s.key, s.val⟩ : Slot κ V) = none := by simp [entry]
    rw [entry_live ho hdl hk hv] at hp hnd ⊢
    rw [hz]
    simp only [Option.toList_some, Option.toList_none, List.append_nil, List.append_assoc,
      List.singleton_append, List.map_append, List.map_cons] at hp hnd ⊢
    rw [List.nodup_append] at hnd
    have hA : ∀ e ∈ A, ¬ e.1 = k := by
      intro e he hc
      exact hnd.2.2 e.1 (List.mem_map_of_mem he) k (by simp) hc
    have hB : ∀ e ∈ B, ¬ e.1 = k := by
      intro e he hc
      have := (List.nodup_cons.1 hnd.2.1).1
      exact this (hc ▸ List.mem_map_of_mem he)
    rw [List.filter_append, List.filter_cons] at hp
    simp only [ne_eq, not_true, decide_false, Bool.false_eq_true, if_false] at hp
    rw [List.filter_eq_self.2 (by intro e he; simp [hA e he]),
      List.filter_eq_self.2 (by intro e he; simp [hB e he])] at hp
    exact ⟨hp, by simp; omega⟩
  refine ⟨?_, ?_, ?_⟩
  rotate_left
  · obtain ⟨e1, e2⟩ := set_split hs ⟨true, true, s.key, s.val⟩
    rw [e2]
    conv => rhs; rw [e1]
    simp [List.countP_cons, ho]
  · rw [← hperm.1.length_eq, ← h.perm.length_eq, hperm.2]
  constructor
  · simp [h.size]
  · rintro q k' v' ⟨s', id', g1, g2, g3, g4, g5⟩
    simp only at g1 ⊢
    have hq : q ≠ p := by
      intro hq; subst hq; rw [List.getElem?_set_self hlt] at g1; cases g1; simp at g3
    rw [List.getElem?_set_ne (Ne.symm hq)] at g1
    obtain ⟨d', c1, c2, c3⟩ := h.chain q k' v' ⟨s', id', g1, g2, g3, g4, g5⟩
    exact ⟨d', c1, c2, fun j hj => occ_set rfl hlt (c3 j hj)⟩
  · exact hperm.1
  · exact List.Nodup.sublist ((List.filter_sublist).map _) h.nodup
  · simp only
    rw [h.len, ← h.perm.length_eq, ← hperm.1.length_eq, hperm.2]; simp
  · intro s' hs' ho' hd'
    rcases List.mem_or_eq_of_mem_set hs' with hm | hm
    · exact h.good s' hm ho' hd'
    · subst hm; simp at hd'
  · simp only
    refine (List.perm_middle.nodup_iff).2 ?_
    have := h.idnd
    rw [(hi.append_right t.freed).nodup_iff] at this
    exact this
  · intro i hm
    simp only at hm ⊢
    rw [List.perm_middle.mem_iff] at hm
    apply h.idlt
    rw [(hi.append_right t.freed).mem_iff]
    exact hm

/-- What happens at the slot where the search of `remove` stops. -/
def removeAt (t : Tab κ V) (idx : Nat) : Run (Tab κ V) :=
  match t.slots[idx]? with
  | none => .ub
  | some s =>
    if !s.occ then .ok t
    else
      match s.key with
      | none => .ub
      | some (_, id) =>
        .ok ⟨t.slots.set idx ⟨true, true, s.key, s.val⟩, t.len - 1, t.cap, t.next, id :: t.freed⟩

theorem removeLoop_eq (t : Tab κ V) (k : κ) : ∀ (f idx : Nat),
    removeLoop t k f idx = (putLoop t k f idx >>= fun p => removeAt t p) := by
  intro f
  induction f with
  | zero => intro idx; rfl
  | succ f ih =>
    intro idx
    unfold removeLoop putLoop
    cases hs : t.slots[idx]? with
    | none => rfl
    | some s =>
      simp only
      by_cases ho : s.occ = true
      · simp only [ho, Bool.not_true, Bool.false_eq_true, if_false]
        cases slotHit t s k with
        | ok b =>
          cases b
          · simp only [Run.ok_bind, Bool.false_eq_true, if_false]; exact ih _
          · simp only [Run.ok_bind, if_true, removeAt, hs, ho, Bool.not_true, Bool.false_eq_true,
              if_false]
            cases s.key <;> rfl
        | ub => rfl
        | hang => rfl
      · have ho' : s.occ = false := by simpa using ho
        simp only [ho', Bool.not_false, if_true, Run.ok_bind, removeAt, hs]

theorem filter_absent {l : List (κ × V)} {k : κ} (hk : k ∉ l.map Prod.fst) :
    l.filter (fun e => e.1 ≠ k) = l := by
  rw [List.filter_eq_self]
  intro e he
  simp only [ne_eq, decide_eq_true_eq]
  rintro rfl
  exact hk (List.mem_map_of_mem he)

theorem remove_holds {t : Tab κ V} {l : List (κ × V)} (h : Holds hash t l) (k : κ) (f : Nat) :
    (remove hash f t k = .hang ∧
      ((k ∈ l.map Prod.fst ∨ ∃ p, p < t.cap ∧ ¬ Occ t p) → f < t.cap)) ∨
    ∃ t', remove hash f t k = .ok t' ∧ Holds hash t' (l.filter (fun e => e.1 ≠ k)) ∧
      t'.cap = t.cap ∧ t'.slots.countP (·.occ) = t.slots.countP (·.occ) ∧ t'.next = t.next ∧
      t'.freed.length + (l.filter (fun e => e.1 ≠ k)).length = t.freed.length + l.length ∧
      l.length ≤ (l.filter (fun e => e.1 ≠ k)).length + 1 := by
  unfold remove
  by_cases hc : t.cap = 0
  · have hs : t.slots = [] := by rw [← List.length_eq_zero_iff, h.size, hc]
    have hl : l = [] := by
      have := h.perm
      rw [hs] at this
      simpa [lives] using this
    subst hl
    simp only [hc, if_true]
    exact .inr ⟨t, rfl, by simpa using h, hc, rfl, rfl, by simp, by simp⟩
  · simp only [hc, if_false]
    rw [removeLoop_eq]
    rcases search_spec h k (by omega) f with ⟨g1, g2⟩ | ⟨d, h1, h2, h3, h4, h5⟩
    · rw [g1]; exact .inl ⟨rfl, g2⟩
    · refine .inr ?_
      rw [h2]
      simp only [Run.ok_bind]
      generalize hp : (hash k % t.cap + d) % t.cap = p at *
      by_cases hk : k ∈ l.map Prod.fst
      · obtain ⟨v, s, id, g1, g2, g3, g4, g5⟩ := h3 hk
        unfold removeAt
        rw [g1]
        simp only [g2, Bool.not_true, Bool.false_eq_true, if_false, g4]
        obtain ⟨k1, k2, k3⟩ := kill_holds h g1 g2 g3 g4 g5
        rw [g4] at k1 k2
        refine ⟨_, rfl, k1, rfl, k2, rfl, by simp only [List.length_cons]; omega, by omega⟩
      · have hno := h4 hk
        have hlt : p < t.slots.length := by rw [h.size, ← hp]; exact Nat.mod_lt _ (by omega)
        have hs : t.slots[p]? = some t.slots[p] := List.getElem?_eq_getElem hlt
        have hso : t.slots[p].occ = false := by
          cases hc : t.slots[p].occ
          · rfl
          · exact absurd ⟨_, hs, hc⟩ hno
        unfold removeAt
        rw [hs]
        simp only [hso, Bool.not_false, if_true]
        refine ⟨t, rfl, ?_, rfl, rfl, rfl, ?_, ?_⟩ <;> rw [filter_absent hk]
        · exact h
        · omega

/-- a never-occupied slot exists when not all slots count as occupied -/
theorem exists_free {t : Tab κ V} (hc : t.slots.countP (·.occ) < t.slots.length) :
    ∃ p, p < t.slots.length ∧ ¬ Occ t p := by
  have hex : ∃ s ∈ t.slots, s.occ = false := by
    refine Classical.byContradiction fun hn => ?_
    have : t.slots.countP (·.occ) = t.slots.length := by
      rw [List.countP_eq_length]
      intro s hs
      cases ho : s.occ
      · exact absurd ⟨s, hs, ho⟩ hn
      · rfl
    omega
  obtain ⟨s, hs, ho⟩ := hex
  obtain ⟨p, hp⟩ := List.mem_iff_getElem?.1 hs
  refine ⟨p, (List.getElem?_eq_some_iff.1 hp).1, ?_⟩
  rintro ⟨s', h1, h2⟩
  rw [hp] at h1; cases h1; rw [ho] at h2; simp at h2

/-- dictionary after a `put` -/
def dput (l : List (κ × V)) (k : κ) (v : V) : List (κ × V) :=
  if k ∈ l.map Prod.fst then l.map (fun e => if e.1 = k then (k, v) else e) else (k, v) :: l

/-- `put` after its load check. -/
theorem putStore_holds {t : Tab κ V} {l : List (κ × V)} (h : Holds hash t l) (k : κ) (v : V)
    (hc : 0 < t.cap) (f : Nat) :
    ((putLoop t k f (hash k % t.cap) >>= fun i => putAt t k v i) = .hang ∧
      ((k ∈ l.map Prod.fst ∨ t.slots.countP (·.occ) < t.cap) → f < t.cap)) ∨
    ∃ t', (putLoop t k f (hash k % t.cap) >>= fun i => putAt t k v i) = .ok t' ∧
      Holds hash t' (dput l k v) ∧ t'.cap = t.cap ∧ t'.freed = t.freed ∧
      t'.next + l.length = t.next + (dput l k v).length ∧
      t'.slots.countP (·.occ) + l.length = t.slots.countP (·.occ) + (dput l k v).length := by
  unfold dput
  rcases search_spec h k hc f with ⟨g1, g2⟩ | ⟨d, h1, h2, h3, h4, h5⟩
  · rw [g1]
    refine .inl ⟨rfl, fun hr => g2 ?_⟩
    rcases hr with hr | hr
    · exact .inl hr
    · obtain ⟨p, hp, hno⟩ := exists_free (t := t) (by rw [h.size]; exact hr)
      exact .inr ⟨p, by rw [← h.size]; exact hp, hno⟩
  · refine .inr ?_
    rw [h2]
    simp only [Run.ok_bind]
    by_cases hk : k ∈ l.map Prod.fst
    · obtain ⟨t', e1, e2, e3, e4, e5, e6, e7⟩ := putAt_old h v (h3 hk)
      simp only [hk, if_true]
      exact ⟨t', e1, e2, e3, e4, by simp [e5], by simp [e7]⟩
    · obtain ⟨t', e1, e2, e3, e4, e5, e6, e7⟩ := putAt_new h v hk h1 (h4 hk) h5
      simp only [hk, if_false]
      exact ⟨t', e1, e2, e3, e4, by rw [e5]; simp; omega, by rw [e7]; simp; omega⟩

theorem put_small {t : Tab κ V} {l : List (κ × V)} (h : Holds hash t l) (k : κ) (v : V)
    (hr : ¬ 4 * t.len ≥ 3 * t.cap) (f : Nat) :
    (put hash f t k v = .hang ∧
      ((k ∈ l.map Prod.fst ∨ t.slots.countP (·.occ) < t.cap) → f < t.cap + 1)) ∨
    ∃ t', put hash f t k v = .ok t' ∧
      Holds hash t' (dput l k v) ∧ t'.cap = t.cap ∧ t'.freed = t.freed ∧
      t'.next + l.length = t.next + (dput l k v).length ∧
      t'.slots.countP (·.occ) + l.length = t.slots.countP (·.occ) + (dput l k v).length := by
  cases f with
  | zero => exact .inl ⟨rfl, fun _ => by omega⟩
  | succ f =>
    unfold put
    simp only [hr, if_false, Run.pure_eq, Run.ok_bind]
    rcases putStore_holds h k v (by omega) f with ⟨g1, g2⟩ | g
    · exact .inl ⟨g1, fun hx => by have := g2 hx; omega⟩
    · exact .inr g

theorem readd_holds (f : Nat) : ∀ (ss : List (Slot κ V)) (t : Tab κ V) (l : List (κ × V)),
    Holds hash t l → Good ss → ((lives ss ++ l).map Prod.fst).Nodup →
    4 * (l.length + (lives ss).length) ≤ 3 * t.cap → (∀ i ∈ ids ss, i ∉ t.freed) →
    t.slots.countP (·.occ) = l.length →
    (readd (put hash f) t ss = .hang ∧ f < t.cap + 1) ∨
    ∃ t' l', readd (put hash f) t ss = .ok t' ∧ t'.cap = t.cap ∧ Holds hash t' l' ∧
      l'.Perm (lives ss ++ l) ∧ t'.freed = t.freed ∧ t'.next = t.next + (lives ss).length ∧
      t'.slots.countP (·.occ) = l'.length := by
  intro ss
  induction ss with
  | nil =>
    intro t l h _ _ _ _ hc
    exact .inr ⟨t, l, rfl, rfl, h, by simp [lives], rfl, by simp [lives], hc⟩
  | cons s ss ih =>
    intro t l h hg hn hroom hid hc
    have hg' : Good ss := fun s hs => hg s (List.mem_cons_of_mem _ hs)
    have hid' : ∀ i ∈ ids ss, i ∉ t.freed := by
      intro i hi
      apply hid
      unfold ids at hi ⊢
      rw [List.filterMap_cons]
      cases sid s <;> simp_all
    unfold readd
    by_cases hs : (s.occ && !s.del) = true
    · have hs' := hs
      simp only [Bool.and_eq_true, Bool.not_eq_true'] at hs'
      obtain ⟨hk, hv⟩ := hg s (by simp) hs'.1 hs'.2
      obtain ⟨⟨k, id⟩, hk⟩ := Option.isSome_iff_exists.1 hk
      obtain ⟨v, hv⟩ := Option.isSome_iff_exists.1 hv
      have hl : lives (s :: ss) = (k, v) :: lives ss := by
        unfold lives; rw [List.filterMap_cons, entry_live hs'.1 hs'.2 hk hv]
      have hfr : id ∉ t.freed := hid id (by
        unfold ids; rw [List.mem_filterMap]; exact ⟨s, by simp, by simp [sid, hs'.1, hs'.2, hk]⟩)
      rw [hl] at hn hroom ⊢
      simp only [hs, if_true, hk, hv, hfr, if_false]
      have hkl : k ∉ l.map Prod.fst := by
        simp only [List.cons_append, List.map_cons, List.map_append, List.nodup_cons,
          List.mem_append, not_or] at hn
        exact hn.1.2
      simp only [List.length_cons] at hroom
      rcases put_small h k v (by rw [h.len]; omega) f with ⟨g1, g2⟩ | ⟨t1, e1, e2, e3, e4, e5, e6⟩
      · rw [g1]; exact .inl ⟨rfl, g2 (.inr (by omega))⟩
      · have hdp : dput l k v = (k, v) :: l := by simp only [dput, hkl, if_false]
        rw [hdp] at e2 e5 e6
        simp only [List.length_cons] at e5 e6
        simp only [e1, Run.ok_bind]
        have hpm : ((k, v) :: lives ss ++ l).Perm (lives ss ++ (k, v) :: l) := by
          simp only [List.cons_append]; exact List.perm_middle.symm
        rcases ih t1 ((k, v) :: l) e2 hg' ((hpm.map _).nodup_iff.1 hn)
          (by simp only [List.length_cons]; rw [e3]; omega) (by rw [e4]; exact hid')
          (by simp only [List.length_cons]; omega) with ⟨g1, g2⟩ | ⟨t', l', g1, g2, g3, g4, g5, g6, g7⟩
        · exact .inl ⟨g1, by rw [e3] at g2; exact g2⟩
        · refine .inr ⟨t', l', g1, by rw [g2, e3], g3, g4.trans hpm.symm, by rw [g5, e4], ?_, g7⟩
          rw [g6]; simp only [List.length_cons]; omega
    · have hs' : (s.occ && !s.del) = false := by simpa using hs
      have hl : lives (s :: ss) = lives ss := by
        unfold lives; rw [List.filterMap_cons]; simp [entry, hs']
      rw [hl] at hn hroom ⊢
      simp only [hs', Bool.false_eq_true, if_false]
      exact ih t l h hg' hn hroom hid' hc

theorem Holds.of_perm {t : Tab κ V} {l l' : List (κ × V)} (h : Holds hash t l) (hp : l.Perm l') :
    Holds hash t l' :=
  ⟨h.size, h.chain, h.perm.trans hp, (hp.map _).nodup_iff.1 h.nodup, by rw [h.len, hp.length_eq],
    h.good, h.idnd, h.idlt⟩

theorem lives_zero (n : Nat) : lives (List.replicate n (Slot.zero : Slot κ V)) = [] := by
  unfold lives
  rw [List.filterMap_eq_nil_iff]
  intro s hs
  rw [List.eq_of_mem_replicate hs]; rfl

theorem ids_zero (n : Nat) : ids (List.replicate n (Slot.zero : Slot κ V)) = [] := by
  unfold ids
  rw [List.filterMap_eq_nil_iff]
  intro s hs
  rw [List.eq_of_mem_replicate hs]; rfl

theorem holds_zero (n m : Nat) {fr : List Nat} (hnd : fr.Nodup) (hlt : ∀ i ∈ fr, i < m) :
    Holds hash (⟨List.replicate n Slot.zero, 0, n, m, fr⟩ : Tab κ V) [] := by
  constructor
  · simp
  · intro p k v hp
    have := mem_lives_iff.2 ⟨p, hp⟩
    rw [lives_zero] at this; simp at this
  · simp only; rw [lives_zero]
  · simp
  · rfl
  · intro s hs ho
    rw [List.eq_of_mem_replicate hs] at ho; simp [Slot.zero] at ho
  · simp only; rw [ids_zero]; simpa using hnd
  · simp only; rw [ids_zero]; simpa using hlt

theorem countP_zero (n : Nat) :
    (List.replicate n (Slot.zero : Slot κ V)).countP (·.occ) = 0 := by
  rw [List.countP_eq_zero]
  intro s hs
  rw [List.eq_of_mem_replicate hs]; simp [Slot.zero]

theorem lives_le_occ (ss : List (Slot κ V)) : (lives ss).length ≤ ss.countP (·.occ) := by
  induction ss with
  | nil => simp [lives]
  | cons s ss ih =>
    unfold lives at ih ⊢
    rw [List.filterMap_cons, List.countP_cons]
    cases he : entry s with
    | none => simp only; omega
    | some e =>
      have : s.occ = true := (entry_eq_some (k := e.1) (v := e.2).1 he).choose_spec.1
      simp [this]; omega

theorem Holds.len_le_occ {t : Tab κ V} {l : List (κ × V)} (h : Holds hash t l) :
    l.length ≤ t.slots.countP (·.occ) := by
  rw [← h.perm.length_eq]; exact lives_le_occ _

theorem Holds.len_le_cap {t : Tab κ V} {l : List (κ × V)} (h : Holds hash t l) :
    l.length ≤ t.cap := by
  have h1 := h.len_le_occ
  have h2 : t.slots.countP (·.occ) ≤ t.slots.length := List.countP_le_length
  rw [h.size] at h2
  omega

theorem resize_holds {t : Tab κ V} {l : List (κ × V)} (h : Holds hash t l) (n f : Nat)
    (hn : 4 * t.cap ≤ 3 * n) :
    (resize (put hash f) t n = .hang ∧ f < n + 1) ∨
    ∃ t', resize (put hash f) t n = .ok t' ∧ t'.cap = n ∧ Holds hash t' l ∧ t'.freed = t.freed ∧
      t'.next = t.next + l.length ∧ t'.slots.countP (·.occ) = l.length := by
  have hnd := h.idnd
  rw [List.nodup_append] at hnd
  have hlen : (lives t.slots).length = l.length := h.perm.length_eq
  rcases readd_holds f t.slots _ [] (holds_zero (hash := hash) n t.next hnd.2.1
      (fun i hi => h.idlt i (by simp [hi]))) h.good
      (by simpa using (h.perm.map _).nodup_iff.2 h.nodup)
      (by have := h.len_le_cap; simp only [List.length_nil]; omega)
      (fun i hi hc => hnd.2.2 i hi i hc rfl) (by simp only; rw [countP_zero]; rfl)
    with g | ⟨t', l', g1, g2, g3, g4, g5, g6, g7⟩
  · exact .inl g
  · refine .inr ⟨t', g1, g2, g3.of_perm ((by simpa using g4 : l'.Perm (lives t.slots)).trans h.perm),
      g5, by rw [g6, hlen], ?_⟩
    rw [g7, g4.length_eq]; simpa using hlen

/-- `put` in full. -/
theorem put_holds {t : Tab κ V} {l : List (κ × V)} (h : Holds hash t l) (k : κ) (v : V) (f : Nat) :
    (put hash f t k v = .hang ∧
      ((4 * l.length ≥ 3 * t.cap ∨ k ∈ l.map Prod.fst ∨ t.slots.countP (·.occ) < t.cap) →
        f < 2 * t.cap + 10)) ∨
    ∃ t', put hash f t k v = .ok t' ∧ Holds hash t' (dput l k v) ∧
      t'.cap = (if 4 * l.length ≥ 3 * t.cap then (if t.cap * 2 < 8 then 8 else t.cap * 2) else t.cap) ∧
      t'.freed = t.freed ∧
      t'.next + l.length = t.next + (if 4 * l.length ≥ 3 * t.cap then l.length else 0)
        + (dput l k v).length ∧
      t'.slots.countP (·.occ) + l.length ≤ t.slots.countP (·.occ) + (dput l k v).length := by
  by_cases hr : 4 * l.length ≥ 3 * t.cap
  · simp only [hr, if_true, true_or]
    cases f with
    | zero => exact .inl ⟨rfl, fun _ => by omega⟩
    | succ f =>
      unfold put
      rw [h.len]
      simp only [hr, if_true]
      generalize hn : (if t.cap * 2 < 8 then 8 else t.cap * 2) = n
      have hn1 : 2 * t.cap ≤ n ∧ 8 ≤ n ∧ n ≤ 2 * t.cap + 8 := by rw [← hn]; split <;> omega
      rcases resize_holds h n f (by omega) with ⟨g1, g2⟩ | ⟨t1, e1, e2, e3, e4, e5, e6⟩
      · rw [g1]; exact .inl ⟨rfl, fun _ => by omega⟩
      · rw [e1]
        simp only [Run.ok_bind]
        have hle := h.len_le_cap
        have hlo := h.len_le_occ
        rcases putStore_holds e3 k v (by omega) f with ⟨g1, g2⟩ | ⟨t', g1, g2, g3, g4, g5, g6⟩
        · exact .inl ⟨g1, fun _ => by have := g2 (.inr (by omega)); omega⟩
        · exact .inr ⟨t', g1, g2, by rw [g3, e2], by rw [g4, e4], by omega, by omega⟩
  · simp only [hr, if_false, false_or, Nat.add_zero]
    rcases put_small h k v (by rw [h.len]; exact hr) f with ⟨g1, g2⟩ | ⟨t', g1, g2, g3, g4, g5, g6⟩
    · exact .inl ⟨g1, fun hx => by have := g2 hx; omega⟩
    · exact .inr ⟨t', g1, g2, g3, g4, g5, by omega⟩

theorem freeKeys_holds : ∀ (ss : List (Slot κ V)) (fr : List Nat), Good ss →
    (ids ss ++ fr).Nodup → ∃ fr', freeKeys ss fr = .ok fr' ∧ fr'.Perm (ids ss ++ fr) := by
  intro ss
  induction ss with
  | nil => intro fr _ _; exact ⟨fr, rfl, by simp [ids]⟩
  | cons s ss ih =>
    intro fr hg hn
    have hg' : Good ss := fun s hs => hg s (List.mem_cons_of_mem _ hs)
    unfold freeKeys
    by_cases hs : (s.occ && !s.del) = true
    · have hs' := hs
      simp only [Bool.and_eq_true, Bool.not_eq_true'] at hs'
      obtain ⟨hk, _⟩ := hg s (by simp) hs'.1 hs'.2
      obtain ⟨⟨k, id⟩, hk⟩ := Option.isSome_iff_exists.1 hk
      have hl : ids (s :: ss) = id :: ids ss := by
        unfold ids; rw [List.filterMap_cons]; simp [sid, hs'.1, hs'.2, hk]
      rw [hl] at hn ⊢
      simp only [List.cons_append] at hn ⊢
      have h1 := List.nodup_cons.1 hn
      have hfr : id ∉ fr := fun hc => h1.1 (by simp [hc])
      simp only [hs, if_true, hk, hfr, if_false]
      obtain ⟨fr', e1, e2⟩ := ih (id :: fr) hg' (List.perm_middle.nodup_iff.2 hn)
      exact ⟨fr', e1, e2.trans List.perm_middle⟩
    · have hs' : (s.occ && !s.del) = false := by simpa using hs
      have hl : ids (s :: ss) = ids ss := by
        unfold ids; rw [List.filterMap_cons]; simp [sid, hs']
      rw [hl] at hn ⊢
      simp only [hs', Bool.false_eq_true, if_false]
      exact ih fr hg' hn

theorem ids_length {ss : List (Slot κ V)} (hg : Good ss) : (ids ss).length = (lives ss).length := by
  induction ss with
  | nil => rfl
  | cons s ss ih =>
    have ih := ih (fun s hs => hg s (List.mem_cons_of_mem _ hs))
    unfold ids lives at ih ⊢
    rw [List.filterMap_cons, List.filterMap_cons]
    by_cases hs : (s.occ && !s.del) = true
    · have hs' := hs
      simp only [Bool.and_eq_true, Bool.not_eq_true'] at hs'
      obtain ⟨hk, hv⟩ := hg s (by simp) hs'.1 hs'.2
      obtain ⟨⟨k, id⟩, hk⟩ := Option.isSome_iff_exists.1 hk
      obtain ⟨v, hv⟩ := Option.isSome_iff_exists.1 hv
      rw [entry_live hs'.1 hs'.2 hk hv]
      simp [sid, hs'.1, hs'.2, hk, ih]
    · have hs' : (s.occ && !s.del) = false := by simpa using hs
      simp [sid, entry, hs', ih]

theorem free_holds {t : Tab κ V} {l : List (κ × V)} (h : Holds hash t l) :
    ∃ t', free t = .ok t' ∧ Holds hash t' [] ∧ t'.cap = 0 ∧ t'.slots = [] ∧ t'.next = t.next ∧
      t'.freed.Perm (ids t.slots ++ t.freed) ∧ t'.freed.length = t.freed.length + l.length := by
  obtain ⟨fr, e1, e2⟩ := freeKeys_holds t.slots t.freed h.good h.idnd
  unfold free
  rw [e1]
  simp only [Run.ok_bind]
  refine ⟨_, rfl, ?_, rfl, rfl, rfl, e2, ?_⟩
  · exact holds_zero 0 t.next (e2.nodup_iff.2 h.idnd) (fun i hi => h.idlt i (e2.mem_iff.1 hi))
  · simp only
    rw [e2.length_eq, List.length_append, ids_length h.good, h.perm.length_eq]; omega

theorem holds_new : Holds hash (new : Tab κ V) [] :=
  holds_zero 0 0 (by simp) (by simp)

/-- Every call either uses up its budget or does what the dictionary does. -/
theorem step_refines {t : Tab κ V} {l : List (κ × V)} (h : Holds hash t l) (op : Op κ V) (f : Nat) :
    step hash f t op = .hang ∨
    ∃ t', step hash f t op = .ok (t', (Spec.step l op).2) ∧ Holds hash t' (Spec.step l op).1 := by
  cases op with
  | put k v =>
    rcases put_holds h k v f with ⟨g, _⟩ | ⟨t', g1, g2, _⟩
    · left; simp only [step, g, Run.hang_bind]
    · right; exact ⟨t', by simp only [step, g1, Run.ok_bind, Run.pure_eq, Spec.step], g2⟩
  | get k =>
    rcases get_holds h k f with ⟨g, _⟩ | g
    · left; simp only [step, g, Run.hang_bind]
    · right; exact ⟨t, by simp only [step, g, Run.ok_bind, Run.pure_eq, Spec.step], h⟩
  | contains k =>
    rcases get_holds h k f with ⟨g, _⟩ | g
    · left; simp only [step, g, Run.hang_bind]
    · right
      refine ⟨t, ?_, h⟩
      simp only [step, g, Run.ok_bind, Run.pure_eq, Spec.step]
      congr 3
      by_cases hk : k ∈ l.map Prod.fst
      · obtain ⟨⟨k', v⟩, hm, rfl⟩ := List.mem_map.1 hk
        rw [lookup_of_mem h.nodup hm]; simp only [hk, decide_true]; rfl
      · rw [lookup_none hk]; simp only [hk, decide_false]; rfl
  | remove k =>
    rcases remove_holds h k f with ⟨g, _⟩ | ⟨t', g1, g2, _⟩
    · left; simp only [step, g, Run.hang_bind]
    · right; exact ⟨t', by simp only [step, g1, Run.ok_bind, Run.pure_eq, Spec.step], g2⟩
  | length => right; exact ⟨t, by simp [step, Spec.step, h.len], h⟩
  | isEmpty =>
    right
    refine ⟨t, ?_, h⟩
    simp only [step, Spec.step, h.len]
    cases l <;> rfl
  | free =>
    right
    obtain ⟨t', g1, g2, _⟩ := free_holds h
    exact ⟨t', by simp only [step, g1, Run.ok_bind, Run.pure_eq, Spec.step], g2⟩

theorem run_refines (f : Nat) (ops : List (Op κ V)) : ∀ (t : Tab κ V) (l : List (κ × V)),
    Holds hash t l → run hash f t ops = .hang ∨
    ∃ t', run hash f t ops = .ok (t', (Spec.run l ops).2) ∧ Holds hash t' (Spec.run l ops).1 := by
  induction ops with
  | nil => intro t l h; exact .inr ⟨t, rfl, h⟩
  | cons op ops ih =>
    intro t l h
    unfold run
    rcases step_refines h op f with g | ⟨t1, g1, g2⟩
    · left; rw [g]; rfl
    · rw [g1]
      simp only [Run.ok_bind]
      rcases ih t1 _ g2 with g | ⟨t', e1, e2⟩
      · left; rw [g]; rfl
      · right
        refine ⟨t', ?_, e2⟩
        rw [e1]
        simp only [Run.ok_bind, Run.pure_eq, Spec.run]

/-- The state after a finished history represents the dictionary's state. -/
theorem reach_holds {f : Nat} {ops : List (Op κ V)} {t : Tab κ V} {rs : List (Ret V)}
    (h : run hash f new ops = .ok (t, rs)) : Holds hash t (Spec.run [] ops).1 := by
  rcases run_refines f ops new [] (holds_new (hash := hash)) with h' | ⟨t', h', hh⟩
  · rw [h] at h'; simp at h'
  · rw [h] at h'
    injection h' with h'; injection h' with h1 h2; subst h1
    exact hh

/-! ### More budget does not change a finished call -/

theorem getLoop_mono {t : Tab κ V} {k : κ} {st : Nat} : ∀ {f g idx : Nat} {b : Option V},
    getLoop t k st f idx = .ok b → f ≤ g → getLoop t k st g idx = .ok b := by
  intro f
  induction f with
  | zero => intro g idx b h _; simp [getLoop] at h
  | succ f ih =>
    intro g idx b h hg
    obtain ⟨g, rfl⟩ : ∃ k, g = k + 1 := ⟨g - 1, by omega⟩
    unfold getLoop at h ⊢
    cases hs : t.slots[idx]? with
    | none => rw [hs] at h; simp at h
    | some s =>
      rw [hs] at h
      simp only at h ⊢
      by_cases ho : (!s.occ) = true
      · simpa only [ho, if_true] using h
      · simp only [ho, if_false, Bool.false_eq_true] at h ⊢
        obtain ⟨c, hc, h⟩ := Run.bind_ok h
        rw [hc]
        simp only [Run.ok_bind]
        cases c
        · simp only [Bool.false_eq_true, if_false] at h ⊢
          by_cases hb : (idx + 1) % t.cap = st
          · simpa only [hb, if_true] using h
          · simp only [hb, if_false] at h ⊢; exact ih h (by omega)
        · exact h

theorem putLoop_mono {t : Tab κ V} {k : κ} : ∀ {f g idx p : Nat},
    putLoop t k f idx = .ok p → f ≤ g → putLoop t k g idx = .ok p := by
  intro f
  induction f with
  | zero => intro g idx b h _; simp [putLoop] at h
  | succ f ih =>
    intro g idx b h hg
    obtain ⟨g, rfl⟩ : ∃ k, g = k + 1 := ⟨g - 1, by omega⟩
    unfold putLoop at h ⊢
    cases hs : t.slots[idx]? with
    | none => rw [hs] at h; simp at h
    | some s =>
      rw [hs] at h
      simp only at h ⊢
      by_cases ho : (!s.occ) = true
      · simpa only [ho, if_true] using h
      · simp only [ho, if_false, Bool.false_eq_true] at h ⊢
        obtain ⟨c, hc, h⟩ := Run.bind_ok h
        rw [hc]
        simp only [Run.ok_bind]
        cases c
        · simp only [Bool.false_eq_true, if_false] at h ⊢; exact ih h (by omega)
        · exact h

theorem readd_mono {a b : Tab κ V → κ → V → Run (Tab κ V)}
    (hab : ∀ t k v r, a t k v = .ok r → b t k v = .ok r) : ∀ (ss : List (Slot κ V)) (t t' : Tab κ V),
    readd a t ss = .ok t' → readd b t ss = .ok t' := by
  intro ss
  induction ss with
  | nil => intro t t' h; exact h
  | cons s ss ih =>
    intro t t' h
    unfold readd at h ⊢
    by_cases hs : (s.occ && !s.del) = true
    · simp only [hs, if_true] at h ⊢
      cases hk : s.key with
      | none => rw [hk] at h; simp at h
      | some e =>
        obtain ⟨k, id⟩ := e
        cases hv : s.val with
        | none => rw [hk, hv] at h; simp at h
        | some v =>
          rw [hk, hv] at h
          simp only at h ⊢
          by_cases hf : id ∈ t.freed
          · simp [hf] at h
          · simp only [hf, if_false] at h ⊢
            obtain ⟨t1, h1, h⟩ := Run.bind_ok h
            rw [hab _ _ _ _ h1]
            exact ih _ _ h
    · have hs' : (s.occ && !s.del) = false := by simpa using hs
      simp only [hs', Bool.false_eq_true, if_false] at h ⊢
      exact ih _ _ h

theorem put_mono : ∀ {f g : Nat} {t : Tab κ V} {k : κ} {v : V} {r : Tab κ V},
    put hash f t k v = .ok r → f ≤ g → put hash g t k v = .ok r := by
  intro f
  induction f with
  | zero => intro g t k v r h _; simp [put] at h
  | succ f ih =>
    intro g t k v r h hg
    obtain ⟨g, rfl⟩ : ∃ k, g = k + 1 := ⟨g - 1, by omega⟩
    unfold put at h ⊢
    by_cases hr : 4 * t.len ≥ 3 * t.cap
    · simp only [hr, if_true] at h ⊢
      obtain ⟨t1, ht1, h⟩ := Run.bind_ok h
      obtain ⟨p, hp, h⟩ := Run.bind_ok h
      unfold resize at ht1 ⊢
      rw [readd_mono (fun t k v r hr => ih hr (by omega)) _ _ _ ht1]
      simp only [Run.ok_bind]
      rw [putLoop_mono hp (by omega)]
      exact h
    · simp only [hr, if_false, Run.pure_eq, Run.ok_bind] at h ⊢
      obtain ⟨p, hp, h⟩ := Run.bind_ok h
      rw [putLoop_mono hp (by omega)]
      exact h

theorem step_mono {t : Tab κ V} {op : Op κ V} {f g : Nat} {r : Tab κ V × Ret V}
    (h : step hash f t op = .ok r) (hg : f ≤ g) : step hash g t op = .ok r := by
  have hget : ∀ {k : κ} {b : Option V}, get hash f t k = .ok b → get hash g t k = .ok b := by
    intro k b hc
    unfold get at hc ⊢
    by_cases h0 : t.cap = 0
    · simpa only [h0, if_true] using hc
    · simp only [h0, if_false] at hc ⊢; exact getLoop_mono hc hg
  cases op with
  | put k v =>
    simp only [step] at h ⊢
    obtain ⟨c, hc, h⟩ := Run.bind_ok h
    rw [put_mono hc hg]; exact h
  | get k =>
    simp only [step] at h ⊢
    obtain ⟨c, hc, h⟩ := Run.bind_ok h
    rw [hget hc]; exact h
  | contains k =>
    simp only [step] at h ⊢
    obtain ⟨c, hc, h⟩ := Run.bind_ok h
    rw [hget hc]; exact h
  | remove k =>
    simp only [step] at h ⊢
    obtain ⟨c, hc, h⟩ := Run.bind_ok h
    have : remove hash g t k = .ok c := by
      unfold remove at hc ⊢
      by_cases h0 : t.cap = 0
      · simpa only [h0, if_true] using hc
      · simp only [h0, if_false, removeLoop_eq] at hc ⊢
        obtain ⟨p, hp, hc⟩ := Run.bind_ok hc
        rw [putLoop_mono hp hg]; exact hc
    rw [this]; exact h
  | length => exact h
  | isEmpty => exact h
  | free => exact h

theorem run_mono {f g : Nat} : ∀ {ops : List (Op κ V)} {t : Tab κ V} {r : Tab κ V × List (Ret V)},
    run hash f t ops = .ok r → f ≤ g → run hash g t ops = .ok r := by
  intro ops
  induction ops with
  | nil => intro t r h _; exact h
  | cons op ops ih =>
    intro t r h hg
    unfold run at h ⊢
    obtain ⟨c, hc, h⟩ := Run.bind_ok h
    obtain ⟨c2, hc2, h⟩ := Run.bind_ok h
    rw [step_mono hc hg]
    simp only [Run.ok_bind]
    rw [ih hc2 hg]
    exact h

end Verif.HashMap
