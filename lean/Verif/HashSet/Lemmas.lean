import Verif.HashSet.Model

/-! Helper lemmas for the hash set. -/

namespace Verif.HashSet
open Verif

set_option linter.unusedSectionVars false

variable {α : Type} [DecidableEq α] {hash : α → Nat}

omit [DecidableEq α] in
/-- slot `p` holds the live value `v` -/
def Live (t : Tab α) (p : Nat) (v : α) : Prop :=
  ∃ s, t.slots[p]? = some s ∧ s.occ = true ∧ s.del = false ∧ s.val = some v

omit [DecidableEq α] in
/-- slot `p` is marked occupied (live or deleted) -/
def Occ (t : Tab α) (p : Nat) : Prop := ∃ s, t.slots[p]? = some s ∧ s.occ = true

/-- the live values of a slot list, in slot order -/
def lives (ss : List (Slot α)) : List α :=
  ss.filterMap fun s => if s.occ && !s.del then s.val else none

/-- every live slot carries a value -/
def Valued (ss : List (Slot α)) : Prop := ∀ s ∈ ss, s.occ = true → s.del = false → s.val.isSome

/-- The table `t` represents the finite set `l`. -/
structure Holds (hash : α → Nat) (t : Tab α) (l : List α) : Prop where
  size : t.slots.length = t.cap
  chain : ∀ p v, Live t p v → ∃ d, d < t.cap ∧ (hash v % t.cap + d) % t.cap = p ∧
    ∀ j, j < d → Occ t ((hash v % t.cap + j) % t.cap)
  perm : (lives t.slots).Perm l
  nodup : l.Nodup
  len : t.len = l.length
  valued : Valued t.slots

omit [DecidableEq α] in
theorem mem_lives {ss : List (Slot α)} {v : α} :
    v ∈ lives ss ↔ ∃ s ∈ ss, s.occ = true ∧ s.del = false ∧ s.val = some v := by
  unfold lives
  rw [List.mem_filterMap]
  constructor
  · rintro ⟨s, hs, h⟩
    refine ⟨s, hs, ?_⟩
    split at h
    · rename_i hc; simp at hc; exact ⟨hc.1, hc.2, h⟩
    · simp at h
  · rintro ⟨s, hs, h1, h2, h3⟩
    exact ⟨s, hs, by simp [h1, h2, h3]⟩

omit [DecidableEq α] in
theorem live_iff_mem {t : Tab α} {v : α} : v ∈ lives t.slots ↔ ∃ p, Live t p v := by
  rw [mem_lives]
  constructor
  · rintro ⟨s, hs, h⟩
    obtain ⟨p, hp⟩ := List.mem_iff_getElem?.1 hs
    exact ⟨p, s, hp, h⟩
  · rintro ⟨p, s, hp, h⟩
    exact ⟨s, List.mem_of_getElem? hp, h⟩

omit [DecidableEq α] in
theorem Live.lt {t : Tab α} {p : Nat} {v : α} (h : Live t p v) : p < t.slots.length := by
  obtain ⟨s, hs, _⟩ := h
  exact (List.getElem?_eq_some_iff.1 hs).1

theorem containsLoop_spec {t : Tab α} (hsz : t.slots.length = t.cap) (v : α) {h : Nat}
    (hh : h < t.cap) : ∀ (f k : Nat), k < t.cap → t.cap - k ≤ f →
    ∃ b, containsLoop t v h f ((h + k) % t.cap) = .ok b ∧
      (b = true ↔ ∃ d, k ≤ d ∧ d < t.cap ∧ Live t ((h + d) % t.cap) v ∧
        ∀ j, k ≤ j → j < d → Occ t ((h + j) % t.cap)) := by
  intro f
  induction f with
  | zero => intro k hk hf; omega
  | succ f ih =>
    intro k hk hf
    have hlt : (h + k) % t.cap < t.slots.length := by
      rw [hsz]; exact Nat.mod_lt _ (by omega)
    unfold containsLoop
    rw [List.getElem?_eq_getElem hlt]
    simp only
    generalize hs : t.slots[(h + k) % t.cap] = s
    have hget : t.slots[(h + k) % t.cap]? = some s := by rw [List.getElem?_eq_getElem hlt, hs]
    by_cases hocc : s.occ = true
    · simp only [hocc, if_true]
      by_cases hv : (!s.del && s.val == some v) = true
      · simp only [hv, if_true]
        refine ⟨true, rfl, ?_⟩
        simp only [true_iff]
        simp at hv
        exact ⟨k, Nat.le_refl _, hk, ⟨s, hget, hocc, hv.1, hv.2⟩, by intro j h1 h2; omega⟩
      · simp only [hv, if_false, Bool.false_eq_true]
        rw [Probe.next_idx]
        have hnl : ∀ d, ¬ (d = k ∧ Live t ((h + d) % t.cap) v) := by
          rintro d ⟨rfl, s', hs', h1, h2, h3⟩
          rw [hget] at hs'; cases hs'
          simp [h2, h3] at hv
        by_cases hb : (h + (k + 1)) % t.cap = h
        · have hk1 := (Probe.back_iff hh hk).1 hb
          simp only [hb, if_true]
          refine ⟨false, rfl, ?_⟩
          constructor
          · simp
          · rintro ⟨d, h1, h2, h3, _⟩
            exact absurd ⟨by omega, h3⟩ (hnl d)
        · have hk1 : k + 1 ≠ t.cap := fun hc => hb ((Probe.back_iff hh hk).2 hc)
          simp only [hb, if_false]
          obtain ⟨b, e1, e2⟩ := ih (k + 1) (by omega) (by omega)
          refine ⟨b, e1, ?_⟩
          rw [e2]
          constructor
          · rintro ⟨d, h1, h2, h3, h4⟩
            refine ⟨d, by omega, h2, h3, ?_⟩
            intro j hj1 hj2
            by_cases hjk : j = k
            · subst hjk; exact ⟨s, hget, hocc⟩
            · exact h4 j (by omega) hj2
          · rintro ⟨d, h1, h2, h3, h4⟩
            have : d ≠ k := fun hc => hnl d ⟨hc, h3⟩
            exact ⟨d, by omega, h2, h3, fun j hj1 hj2 => h4 j (by omega) hj2⟩
    · simp only [hocc, if_false, Bool.false_eq_true]
      refine ⟨false, rfl, ?_⟩
      constructor
      · simp
      · rintro ⟨d, h1, h2, h3, h4⟩
        exfalso
        by_cases hdk : d = k
        · subst hdk
          obtain ⟨s', hs', g1, _⟩ := h3
          rw [hget] at hs'; cases hs'
          exact hocc g1
        · obtain ⟨s', hs', g1⟩ := h4 k (Nat.le_refl _) (by omega)
          rw [hget] at hs'; cases hs'
          exact hocc g1

theorem mem_iff_found {t : Tab α} {l : List α} (h : Holds hash t l) (v : α) :
    v ∈ l ↔ ∃ d, 0 ≤ d ∧ d < t.cap ∧ Live t ((hash v % t.cap + d) % t.cap) v ∧
        ∀ j, 0 ≤ j → j < d → Occ t ((hash v % t.cap + j) % t.cap) := by
  rw [← h.perm.mem_iff, live_iff_mem]
  constructor
  · rintro ⟨p, hp⟩
    obtain ⟨d, h1, h2, h3⟩ := h.chain p v hp
    exact ⟨d, Nat.zero_le _, h1, by rw [h2]; exact hp, fun j _ hj => h3 j hj⟩
  · rintro ⟨d, _, _, h3, _⟩
    exact ⟨_, h3⟩

theorem contains_holds {t : Tab α} {l : List α} (h : Holds hash t l) (v : α) {f : Nat}
    (hf : t.cap ≤ f) : contains hash f t v = .ok (decide (v ∈ l)) := by
  unfold contains
  by_cases hc : t.cap = 0
  · have hs : t.slots = [] := by rw [← List.length_eq_zero_iff, h.size, hc]
    have hl : l = [] := by
      have := h.perm
      rw [hs] at this
      simpa [lives] using this
    simp [hc, hl]
  · simp only [hc, if_false]
    have hh : hash v % t.cap < t.cap := Nat.mod_lt _ (by omega)
    obtain ⟨b, e1, e2⟩ := containsLoop_spec h.size v hh f 0 (by omega) (by omega)
    rw [Nat.add_zero, Nat.mod_eq_of_lt hh] at e1
    rw [e1]
    congr 1
    rw [Bool.eq_iff_iff, e2, decide_eq_true_iff, mem_iff_found h]

omit [DecidableEq α] in
/-- some slot is not live while fewer than `cap` values are stored -/
theorem exists_free (ss : List (Slot α)) (hv : Valued ss) (hlt : (lives ss).length < ss.length) :
    ∃ (p : Nat) (s : Slot α), ss[p]? = some s ∧ (s.occ && !s.del) = false := by
  induction ss with
  | nil => simp at hlt
  | cons s ss ih =>
    by_cases hs : (s.occ && !s.del) = true
    · have hval : s.val.isSome := by
        have := hv s (by simp)
        simp at hs
        exact this hs.1 hs.2
      obtain ⟨x, hx⟩ := Option.isSome_iff_exists.1 hval
      have : lives (s :: ss) = x :: lives ss := by
        unfold lives
        rw [List.filterMap_cons]
        simp [hs, hx]
      rw [this] at hlt
      obtain ⟨p, s', h1, h2⟩ := ih (fun s hs => hv s (List.mem_cons_of_mem _ hs)) (by simpa using hlt)
      exact ⟨p + 1, s', by simpa using h1, h2⟩
    · exact ⟨0, s, by simp, by simpa using hs⟩

omit [DecidableEq α] in
theorem addLoop_spec {t : Tab α} (hsz : t.slots.length = t.cap) {h : Nat} (hh : h < t.cap)
    {e : Nat} {s0 : Slot α} (hs0 : t.slots[(h + e) % t.cap]? = some s0)
    (hfree : (s0.occ && !s0.del) = false) : ∀ (f k : Nat), k ≤ e → e < t.cap → e - k < f →
    ∃ d s, k ≤ d ∧ d < t.cap ∧ addLoop t f ((h + k) % t.cap) = .ok ((h + d) % t.cap) ∧
      t.slots[(h + d) % t.cap]? = some s ∧ (s.occ && !s.del) = false ∧
      ∀ j, k ≤ j → j < d → Occ t ((h + j) % t.cap) := by
  intro f
  induction f with
  | zero => intro k _ _ hf; omega
  | succ f ih =>
    intro k hk he hf
    have hlt : (h + k) % t.cap < t.slots.length := by
      rw [hsz]; exact Nat.mod_lt _ (by omega)
    unfold addLoop
    rw [List.getElem?_eq_getElem hlt]
    simp only
    generalize hs : t.slots[(h + k) % t.cap] = s
    have hget : t.slots[(h + k) % t.cap]? = some s := by rw [List.getElem?_eq_getElem hlt, hs]
    by_cases hl : (s.occ && !s.del) = true
    · simp only [hl, if_true]
      have hke : k ≠ e := by
        intro hc; subst hc
        rw [hget] at hs0; cases hs0
        rw [hl] at hfree; simp at hfree
      rw [Probe.next_idx]
      obtain ⟨d, s', h1, h2, h3, h4, h5, h6⟩ := ih (k + 1) (by omega) he (by omega)
      refine ⟨d, s', by omega, h2, h3, h4, h5, ?_⟩
      intro j hj1 hj2
      by_cases hjk : j = k
      · subst hjk; simp at hl; exact ⟨s, hget, hl.1⟩
      · exact h6 j (by omega) hj2
    · simp only [hl, if_false, Bool.false_eq_true]
      exact ⟨k, s, Nat.le_refl _, by omega, rfl, hget, by simpa using hl,
        by intro j h1 h2; omega⟩

omit [DecidableEq α] in
theorem set_split {β : Type} {ss : List β} {p : Nat} {s : β} (hs : ss[p]? = some s) (x : β) :
    ss = ss.take p ++ s :: ss.drop (p + 1) ∧ ss.set p x = ss.take p ++ x :: ss.drop (p + 1) := by
  obtain ⟨hlt, he⟩ := List.getElem?_eq_some_iff.1 hs
  refine ⟨?_, ?_⟩
  · rw [← he, ← List.drop_eq_getElem_cons hlt, List.take_append_drop]
  · rw [List.set_eq_take_append_cons_drop, if_pos hlt]

theorem insert_holds {t : Tab α} {l : List α} (h : Holds hash t l) {v : α} (hv : v ∉ l)
    {d : Nat} {s : Slot α} (hd : d < t.cap)
    (hs : t.slots[(hash v % t.cap + d) % t.cap]? = some s) (hfree : (s.occ && !s.del) = false)
    (hocc : ∀ j, j < d → Occ t ((hash v % t.cap + j) % t.cap)) :
    Holds hash ⟨t.slots.set ((hash v % t.cap + d) % t.cap) ⟨true, false, some v⟩, t.len + 1, t.cap⟩
      (v :: l) := by
  generalize hp : (hash v % t.cap + d) % t.cap = p at *
  have hlt := (List.getElem?_eq_some_iff.1 hs).1
  have hget : ∀ q, q ≠ p → (t.slots.set p ⟨true, false, some v⟩)[q]? = t.slots[q]? := by
    intro q hq; rw [List.getElem?_set_ne (Ne.symm hq)]
  have hgetp : (t.slots.set p ⟨true, false, some v⟩)[p]? = some ⟨true, false, some v⟩ := by
    simp [hlt]
  have hoccmono : ∀ q, Occ t q →
      Occ ⟨t.slots.set p ⟨true, false, some v⟩, t.len + 1, t.cap⟩ q := by
    rintro q ⟨s', h1, h2⟩
    by_cases hq : q = p
    · subst hq; exact ⟨_, hgetp, rfl⟩
    · exact ⟨s', by simp only; rw [hget q hq]; exact h1, h2⟩
  constructor
  · simp [h.size]
  · rintro q w ⟨s', g1, g2, g3, g4⟩
    simp only at g1 ⊢
    by_cases hq : q = p
    · subst hq
      rw [hgetp] at g1; cases g1
      cases g4
      exact ⟨d, hd, hp, fun j hj => hoccmono _ (hocc j hj)⟩
    · rw [hget q hq] at g1
      obtain ⟨d', e1, e2, e3⟩ := h.chain q w ⟨s', g1, g2, g3, g4⟩
      exact ⟨d', e1, e2, fun j hj => hoccmono _ (e3 j hj)⟩
  · obtain ⟨e1, e2⟩ := set_split hs ⟨true, false, some v⟩
    simp only
    rw [e2]
    have hl : (lives t.slots).Perm l := h.perm
    have eold : lives t.slots = lives (t.slots.take p) ++ lives (t.slots.drop (p + 1)) := by
      conv => lhs; rw [e1]
      unfold lives
      rw [List.filterMap_append, List.filterMap_cons]
      simp [hfree]
    have enew : lives (t.slots.take p ++ (⟨true, false, some v⟩ : Slot α) :: t.slots.drop (p + 1))
        = lives (t.slots.take p) ++ v :: lives (t.slots.drop (p + 1)) := by
      unfold lives
      rw [List.filterMap_append, List.filterMap_cons]
      simp
    rw [enew]
    refine List.perm_middle.trans (List.Perm.cons _ ?_)
    rw [← eold]; exact hl
  · exact List.nodup_cons.2 ⟨hv, h.nodup⟩
  · simp [h.len]
  · intro s' hs' ho hd'
    rcases List.mem_or_eq_of_mem_set hs' with hm | hm
    · exact h.valued s' hm ho hd'
    · subst hm; rfl

/-- `add` of an absent value into a table that needs no resize. -/
theorem add_small {t : Tab α} {l : List α} (h : Holds hash t l) {v : α} (hv : v ∉ l)
    (hroom : 4 * l.length < 3 * t.cap) {f : Nat} (hf : t.cap ≤ f) :
    ∃ t', add hash (f + 1) t v = .ok (t', true) ∧ Holds hash t' (v :: l) ∧ t'.cap = t.cap := by
  have hcap : 0 < t.cap := by omega
  have hh : hash v % t.cap < t.cap := Nat.mod_lt _ hcap
  obtain ⟨p, s0, hs0, hfree0⟩ := exists_free t.slots h.valued
    (by rw [h.perm.length_eq, h.size]; omega)
  have hp := (List.getElem?_eq_some_iff.1 hs0).1
  obtain ⟨e, he, hep⟩ := Probe.reach hh (by rw [← h.size]; exact hp)
  obtain ⟨d, s, h1, h2, h3, h4, h5, h6⟩ := addLoop_spec (t := t) h.size hh (e := e) (s0 := s0)
    (by rw [hep]; exact hs0) hfree0 f 0 (Nat.zero_le _) he (by omega)
  rw [Nat.add_zero, Nat.mod_eq_of_lt hh] at h3
  unfold add
  simp only [contains_holds h v hf, hv, decide_false, Run.ok_bind, Bool.false_eq_true, if_false]
  have hnr : ¬ 4 * t.len ≥ 3 * t.cap := by rw [h.len]; omega
  simp only [hnr, if_false, Run.pure_eq, Run.ok_bind, h3]
  exact ⟨_, rfl, insert_holds h hv h2 h4 h5 (fun j hj => h6 j (Nat.zero_le _) hj), rfl⟩

omit [DecidableEq α] in
theorem lives_cons_live {s : Slot α} {ss : List (Slot α)} {x : α}
    (hs : (s.occ && !s.del) = true) (hx : s.val = some x) : lives (s :: ss) = x :: lives ss := by
  unfold lives
  rw [List.filterMap_cons]
  simp [hs, hx]

omit [DecidableEq α] in
theorem lives_cons_dead {s : Slot α} {ss : List (Slot α)}
    (hs : (s.occ && !s.del) = false) : lives (s :: ss) = lives ss := by
  unfold lives
  rw [List.filterMap_cons]
  simp [hs]

theorem readd_holds {f : Nat} : ∀ (ss : List (Slot α)) (t : Tab α) (l : List α),
    Holds hash t l → Valued ss → (lives ss ++ l).Nodup →
    4 * (l.length + (lives ss).length) ≤ 3 * t.cap → t.cap ≤ f →
    ∃ t', readd (add hash (f + 1)) t ss = .ok t' ∧ t'.cap = t.cap ∧
      ∃ l', Holds hash t' l' ∧ l'.Perm (lives ss ++ l) := by
  intro ss
  induction ss with
  | nil => intro t l h _ _ _ _; exact ⟨t, rfl, rfl, l, h, by simp [lives]⟩
  | cons s ss ih =>
    intro t l h hv hn hroom hf
    have hv' : Valued ss := fun s hs => hv s (List.mem_cons_of_mem _ hs)
    unfold readd
    by_cases hs : (s.occ && !s.del) = true
    · have hval : s.val.isSome := by
        have := hv s (by simp)
        simp at hs
        exact this hs.1 hs.2
      obtain ⟨x, hx⟩ := Option.isSome_iff_exists.1 hval
      rw [lives_cons_live hs hx] at hn hroom ⊢
      simp only [hs, if_true, hx]
      have hxl : x ∉ l := by
        simp at hn; exact fun hc => hn.1.2 hc
      simp only [List.length_cons] at hroom
      obtain ⟨t1, e1, e2, e3⟩ := add_small h hxl (by omega) hf
      simp only [e1, Run.ok_bind]
      have hn' : (lives ss ++ x :: l).Nodup := by
        have : ((x :: lives ss) ++ l).Perm (lives ss ++ x :: l) := by
          simp only [List.cons_append]; exact List.perm_middle.symm
        exact this.nodup_iff.1 hn
      obtain ⟨t', g1, g2, l', g3, g4⟩ := ih t1 (x :: l) e2 hv' hn' (by simp only [List.length_cons]; rw [e3]; omega)
        (by rw [e3]; exact hf)
      refine ⟨t', g1, by rw [g2, e3], l', g3, g4.trans ?_⟩
      simp only [List.cons_append]; exact List.perm_middle
    · have hs' : (s.occ && !s.del) = false := by simpa using hs
      rw [lives_cons_dead hs'] at hn hroom ⊢
      simp only [hs', Bool.false_eq_true, if_false]
      exact ih t l h hv' hn hroom hf

theorem holds_fresh (n : Nat) :
    Holds hash (⟨List.replicate n ⟨false, false, none⟩, 0, n⟩ : Tab α) [] := by
  have hl : lives (List.replicate n (⟨false, false, none⟩ : Slot α)) = [] := by
    rw [List.eq_nil_iff_forall_not_mem]
    intro v hv
    obtain ⟨s, hs, h, _⟩ := mem_lives.1 hv
    rw [List.eq_of_mem_replicate hs] at h
    simp at h
  constructor
  · simp
  · intro p v hp
    have := live_iff_mem.2 ⟨p, hp⟩
    rw [hl] at this; simp at this
  · rw [hl]
  · simp
  · rfl
  · intro s hs h _
    rw [List.eq_of_mem_replicate hs] at h
    simp at h

omit [DecidableEq α] in
theorem lives_length_le (ss : List (Slot α)) : (lives ss).length ≤ ss.length := by
  unfold lives; exact List.length_filterMap_le _ _

theorem resize_holds {t : Tab α} {l : List α} (h : Holds hash t l) (n f : Nat)
    (hn : 4 * t.cap ≤ 3 * n) (hf : n ≤ f) :
    ∃ t', resize (add hash (f + 1)) t n = .ok t' ∧ t'.cap = n ∧
      ∃ l', Holds hash t' l' ∧ l'.Perm l := by
  have hlen := lives_length_le t.slots
  rw [h.size] at hlen
  obtain ⟨t', e1, e2, l', e3, e4⟩ := readd_holds (f := f) t.slots _ [] (holds_fresh (hash := hash) n)
    h.valued (by simpa using h.perm.nodup_iff.2 h.nodup) (by simp only [List.length_nil]; omega) hf
  exact ⟨t', e1, e2, l', e3, e4.trans (by simpa using h.perm)⟩

theorem Holds.of_perm {t : Tab α} {l l' : List α} (h : Holds hash t l) (hp : l.Perm l') :
    Holds hash t l' :=
  ⟨h.size, h.chain, h.perm.trans hp, hp.nodup_iff.1 h.nodup, by rw [h.len, hp.length_eq], h.valued⟩

/-- Fuel that is enough for one call on a table of capacity `cap`. -/
def enough (cap : Nat) : Nat := 2 * cap + 10

theorem add_holds {t : Tab α} {l : List α} (h : Holds hash t l) (v : α) {f : Nat}
    (hf : enough t.cap ≤ f) :
    ∃ t', add hash f t v = .ok (t', decide (v ∉ l)) ∧
      Holds hash t' (if v ∈ l then l else v :: l) := by
  unfold enough at hf
  obtain ⟨f, rfl⟩ : ∃ g, f = g + 2 := ⟨f - 2, by omega⟩
  by_cases hv : v ∈ l
  · unfold add
    simp only [contains_holds h v (show t.cap ≤ f + 1 by omega), hv, decide_true, Run.ok_bind, if_true,
      Run.pure_eq, not_true, decide_false]
    exact ⟨t, rfl, h⟩
  · simp only [hv, if_false, not_false_iff, decide_true]
    by_cases hr : 4 * t.len ≥ 3 * t.cap
    · generalize hn : (if t.cap * 2 < 8 then 8 else t.cap * 2) = n
      have hn1 : 2 * t.cap ≤ n ∧ 8 ≤ n := by rw [← hn]; split <;> omega
      have hnf : n ≤ f := by rw [← hn]; split <;> omega
      obtain ⟨t1, e1, e2, l1, e3, e4⟩ := resize_holds h n f (by omega) hnf
      have h1 := e3.of_perm e4
      have hlen : l.length ≤ t.cap := by
        rw [← h.perm.length_eq, ← h.size]; exact lives_length_le _
      have hroom : 4 * l.length < 3 * t1.cap := by rw [e2]; omega
      obtain ⟨t2, g1, g2, g3⟩ := add_small h1 hv hroom (f := f + 1) (by omega)
      -- the call on `t` does the same as a call on the resized table
      have key : add hash (f + 2) t v = add hash (f + 2) t1 v := by
        have hc1 := contains_holds h v (f := f + 1) (by omega)
        have hc2 := contains_holds h1 v (f := f + 1) (by omega)
        unfold add
        simp only [hc1, hc2, hv, decide_false, Run.ok_bind, Bool.false_eq_true, if_false, hr, if_true, hn, e1]
        have hnr : ¬ 4 * t1.len ≥ 3 * t1.cap := by rw [h1.len]; omega
        simp only [hnr, if_false, Run.pure_eq, Run.ok_bind]
      rw [key]
      exact ⟨t2, g1, g2⟩
    · rw [h.len] at hr
      obtain ⟨t2, g1, g2, _⟩ := add_small h hv (by omega) (f := f + 1) (by omega)
      exact ⟨t2, g1, g2⟩

theorem removeLoop_eq {t : Tab α} (hsz : t.slots.length = t.cap) (v : α) {h : Nat}
    (hh : h < t.cap) : ∀ (f k : Nat), k < t.cap →
    (∃ d, k ≤ d ∧ d < t.cap ∧ Live t ((h + d) % t.cap) v ∧ d - k < f ∧
      containsLoop t v h f ((h + k) % t.cap) = .ok true ∧
      removeLoop t v h f ((h + k) % t.cap) = .ok (⟨t.slots.set ((h + d) % t.cap)
        ⟨true, true, some v⟩, t.len - 1, t.cap⟩, true)) ∨
    (containsLoop t v h f ((h + k) % t.cap) = .ok false ∧
      removeLoop t v h f ((h + k) % t.cap) = .ok (t, false)) ∨
    (containsLoop t v h f ((h + k) % t.cap) = .hang) := by
  intro f
  induction f with
  | zero => intro k _; exact .inr (.inr rfl)
  | succ f ih =>
    intro k hk
    have hlt : (h + k) % t.cap < t.slots.length := by
      rw [hsz]; exact Nat.mod_lt _ (by omega)
    unfold containsLoop removeLoop
    rw [List.getElem?_eq_getElem hlt]
    simp only
    generalize hs : t.slots[(h + k) % t.cap] = s
    have hget : t.slots[(h + k) % t.cap]? = some s := by rw [List.getElem?_eq_getElem hlt, hs]
    by_cases hocc : s.occ = true
    · simp only [hocc, if_true]
      by_cases hv : (!s.del && s.val == some v) = true
      · simp only [hv, if_true]
        simp at hv
        refine .inl ⟨k, Nat.le_refl _, hk, ⟨s, hget, hocc, hv.1, hv.2⟩, by omega, trivial, ?_⟩
        rw [hv.2]
      · simp only [hv, if_false, Bool.false_eq_true]
        rw [Probe.next_idx]
        by_cases hb : (h + (k + 1)) % t.cap = h
        · simp only [hb, if_true]
          exact .inr (.inl ⟨trivial, trivial⟩)
        · have hk1 : k + 1 ≠ t.cap := fun hc => hb ((Probe.back_iff hh hk).2 hc)
          simp only [hb, if_false]
          rcases ih (k + 1) (by omega) with ⟨d, h1, h2, h3, h4, h5, h6⟩ | h | h
          · exact .inl ⟨d, by omega, h2, h3, by omega, h5, h6⟩
          · exact .inr (.inl h)
          · exact .inr (.inr h)
    · simp only [hocc, if_false, Bool.false_eq_true]
      simp

omit [DecidableEq α] in
theorem lives_kill {ss : List (Slot α)} {p : Nat} {s : Slot α} {v : α} (hs : ss[p]? = some s)
    (ho : s.occ = true) (hd : s.del = false) (hv : s.val = some v) :
    ∃ A B, lives ss = A ++ v :: B ∧ lives (ss.set p ⟨true, true, some v⟩) = A ++ B := by
  obtain ⟨e1, e2⟩ := set_split hs ⟨true, true, some v⟩
  refine ⟨lives (ss.take p), lives (ss.drop (p + 1)), ?_, ?_⟩
  · conv => lhs; rw [e1]
    unfold lives
    rw [List.filterMap_append, List.filterMap_cons]
    simp [ho, hd, hv]
  · rw [e2]
    unfold lives
    rw [List.filterMap_append, List.filterMap_cons]
    simp

theorem kill_holds {t : Tab α} {l : List α} (h : Holds hash t l) {p : Nat} {v : α}
    (hl : Live t p v) :
    Holds hash ⟨t.slots.set p ⟨true, true, some v⟩, t.len - 1, t.cap⟩ (l.filter (· ≠ v)) := by
  obtain ⟨s, hs, ho, hd, hv⟩ := hl
  have hlt := (List.getElem?_eq_some_iff.1 hs).1
  obtain ⟨A, B, e1, e2⟩ := lives_kill hs ho hd hv
  have hnd : (A ++ v :: B).Nodup := by rw [← e1]; exact h.perm.nodup_iff.2 h.nodup
  have hperm : (A ++ B).Perm (l.filter (· ≠ v)) := by
    have h1 := h.perm.filter (fun x => decide (x ≠ v))
    rw [e1] at h1
    have h2 : (A ++ v :: B).filter (fun x => decide (x ≠ v)) = A ++ B := by
      have hA : v ∉ A := by
        intro hc
        have := (List.nodup_append.1 hnd).2.2 v hc v (by simp)
        exact this rfl
      have hB : v ∉ B := by
        have := (List.nodup_append.1 hnd).2.1
        exact (List.nodup_cons.1 this).1
      rw [List.filter_append, List.filter_cons]
      simp only [ne_eq, not_true, decide_false, Bool.false_eq_true, if_false]
      rw [List.filter_eq_self.2, List.filter_eq_self.2]
      · intro a ha; simp; intro hc; subst hc; exact hB ha
      · intro a ha; simp; intro hc; subst hc; exact hA ha
    rw [h2] at h1; exact h1
  have hgetp : (t.slots.set p ⟨true, true, some v⟩)[p]? = some ⟨true, true, some v⟩ := by
    simp [hlt]
  constructor
  · simp [h.size]
  · rintro q w ⟨s', g1, g2, g3, g4⟩
    simp only at g1 ⊢
    have hq : q ≠ p := by
      intro hq; subst hq; rw [hgetp] at g1; cases g1; simp at g3
    rw [List.getElem?_set_ne (Ne.symm hq)] at g1
    obtain ⟨d, c1, c2, c3⟩ := h.chain q w ⟨s', g1, g2, g3, g4⟩
    refine ⟨d, c1, c2, fun j hj => ?_⟩
    obtain ⟨s'', o1, o2⟩ := c3 j hj
    by_cases hr : (hash w % t.cap + j) % t.cap = p
    · rw [hr]; exact ⟨_, hgetp, rfl⟩
    · exact ⟨s'', by simp only; rw [List.getElem?_set_ne (Ne.symm hr)]; exact o1, o2⟩
  · simp only; rw [e2]; exact hperm
  · exact h.nodup.filter _
  · simp only
    rw [h.len, ← hperm.length_eq, ← h.perm.length_eq, e1]; simp
  · intro s' hs' ho' hd'
    rcases List.mem_or_eq_of_mem_set hs' with hm | hm
    · exact h.valued s' hm ho' hd'
    · subst hm; rfl

theorem remove_holds {t : Tab α} {l : List α} (h : Holds hash t l) (v : α) {f : Nat}
    (hf : t.cap ≤ f) :
    ∃ t', remove hash f t v = .ok (t', decide (v ∈ l)) ∧ Holds hash t' (l.filter (· ≠ v)) ∧
      t'.cap = t.cap := by
  have hc := contains_holds h v hf
  have hsame : v ∉ l → Holds hash t (l.filter (· ≠ v)) := by
    intro hv
    have : l.filter (fun x => decide (x ≠ v)) = l := by
      rw [List.filter_eq_self]
      intro a ha; simp; intro hc; subst hc; exact hv ha
    rw [this]; exact h
  unfold contains at hc
  unfold remove
  by_cases h0 : t.cap = 0
  · simp only [h0, if_true, Run.ok.injEq] at hc ⊢
    have hv : v ∉ l := by simpa using hc.symm
    refine ⟨t, by simp [hv], hsame hv, h0⟩
  · simp only [h0, if_false] at hc ⊢
    have hh : hash v % t.cap < t.cap := Nat.mod_lt _ (by omega)
    have := removeLoop_eq h.size v hh f 0 (by omega)
    rw [Nat.add_zero, Nat.mod_eq_of_lt hh] at this
    rw [hc] at this
    rcases this with ⟨d, h1, h2, h3, h4, h5, h6⟩ | ⟨h5, h6⟩ | h5
    · refine ⟨_, by rw [h6]; injection h5 with h5; rw [h5], kill_holds h h3, rfl⟩
    · injection h5 with h5
      refine ⟨t, by rw [h6, h5], hsame (by simpa using h5), rfl⟩
    · cases h5

theorem clear_holds {t : Tab α} {l : List α} (h : Holds hash t l) : Holds hash (clear t) [] := by
  have hl : lives (clear t).slots = [] := by
    rw [List.eq_nil_iff_forall_not_mem]
    intro v hv
    obtain ⟨s, hs, ho, _⟩ := mem_lives.1 hv
    simp only [clear, List.mem_map] at hs
    obtain ⟨s', _, rfl⟩ := hs
    simp at ho
  constructor
  · simp [clear, h.size]
  · intro p v hp
    have := live_iff_mem.2 ⟨p, hp⟩
    rw [hl] at this; simp at this
  · rw [hl]
  · simp
  · rfl
  · intro s hs ho _
    simp only [clear, List.mem_map] at hs
    obtain ⟨s', _, rfl⟩ := hs
    simp at ho

theorem holds_new : Holds hash (new : Tab α) [] := by
  constructor <;> simp [new, lives, Live, Valued]

theorem step_refines {t : Tab α} {l : List α} (h : Holds hash t l) (op : Op α) {f : Nat}
    (hf : enough t.cap ≤ f) :
    ∃ t', step hash f t op = .ok (t', (Spec.step l op).2) ∧ Holds hash t' (Spec.step l op).1 := by
  have hf' : t.cap ≤ f := by unfold enough at hf; omega
  cases op with
  | add v =>
    obtain ⟨t', e1, e2⟩ := add_holds h v hf
    refine ⟨t', ?_, ?_⟩
    · simp only [step, e1, Run.ok_bind, Run.pure_eq, Spec.step]
      split <;> simp_all
    · simp only [Spec.step]
      split <;> simp_all
  | remove v =>
    obtain ⟨t', e1, e2, _⟩ := remove_holds h v hf'
    exact ⟨t', by simp only [step, e1, Run.ok_bind, Run.pure_eq, Spec.step], e2⟩
  | contains v =>
    exact ⟨t, by simp only [step, contains_holds h v hf', Run.ok_bind, Run.pure_eq, Spec.step], h⟩
  | length => exact ⟨t, by simp [step, Spec.step, h.len], h⟩
  | isEmpty =>
    refine ⟨t, ?_, h⟩
    simp only [step, Spec.step, h.len]
    cases l <;> rfl
  | clear => exact ⟨_, rfl, clear_holds h⟩
  | free => exact ⟨_, rfl, holds_new⟩

/-! ### More budget does not change a finished call -/

theorem containsLoop_mono {t : Tab α} {v : α} {st : Nat} : ∀ {f g idx : Nat} {b : Bool},
    containsLoop t v st f idx = .ok b → f ≤ g → containsLoop t v st g idx = .ok b := by
  intro f
  induction f with
  | zero => intro g idx b h _; simp [containsLoop] at h
  | succ f ih =>
    intro g idx b h hg
    obtain ⟨g, rfl⟩ : ∃ k, g = k + 1 := ⟨g - 1, by omega⟩
    unfold containsLoop at h ⊢
    split at h
    · simp at h
    · simp only at h ⊢
      split
      · rename_i ho
        simp only [ho, if_true] at h
        split
        · rename_i hd; simpa only [hd, if_true] using h
        · rename_i hd
          simp only [hd, if_false, Bool.false_eq_true] at h
          split
          · rename_i hb; simpa only [hb, if_true] using h
          · rename_i hb
            simp only [hb, if_false] at h
            exact ih h (by omega)
      · rename_i ho; simpa [ho] using h

theorem removeLoop_mono {t : Tab α} {v : α} {st : Nat} : ∀ {f g idx : Nat} {b : Tab α × Bool},
    removeLoop t v st f idx = .ok b → f ≤ g → removeLoop t v st g idx = .ok b := by
  intro f
  induction f with
  | zero => intro g idx b h _; simp [removeLoop] at h
  | succ f ih =>
    intro g idx b h hg
    obtain ⟨g, rfl⟩ : ∃ k, g = k + 1 := ⟨g - 1, by omega⟩
    unfold removeLoop at h ⊢
    split at h
    · simp at h
    · simp only at h ⊢
      split
      · rename_i ho
        simp only [ho, if_true] at h
        split
        · rename_i hd; simpa only [hd, if_true] using h
        · rename_i hd
          simp only [hd, if_false, Bool.false_eq_true] at h
          split
          · rename_i hb; simpa only [hb, if_true] using h
          · rename_i hb
            simp only [hb, if_false] at h
            exact ih h (by omega)
      · rename_i ho; simpa [ho] using h

theorem addLoop_mono {t : Tab α} : ∀ {f g idx p : Nat},
    addLoop t f idx = .ok p → f ≤ g → addLoop t g idx = .ok p := by
  intro f
  induction f with
  | zero => intro g idx b h _; simp [addLoop] at h
  | succ f ih =>
    intro g idx b h hg
    obtain ⟨g, rfl⟩ : ∃ k, g = k + 1 := ⟨g - 1, by omega⟩
    unfold addLoop at h ⊢
    split at h
    · simp at h
    · split
      · rename_i ho
        simp only [ho, if_true] at h
        exact ih h (by omega)
      · rename_i ho; simpa [ho] using h

theorem readd_mono {a b : Tab α → α → Run (Tab α × Bool)}
    (hab : ∀ t v r, a t v = .ok r → b t v = .ok r) : ∀ (ss : List (Slot α)) (t t' : Tab α),
    readd a t ss = .ok t' → readd b t ss = .ok t' := by
  intro ss
  induction ss with
  | nil => intro t t' h; exact h
  | cons s ss ih =>
    intro t t' h
    unfold readd at h ⊢
    split
    · rename_i hs
      simp only [hs, if_true] at h
      split at h
      · simp at h
      · rename_i v _
        cases hv : a t v with
        | ok r =>
          rw [hv] at h
          rw [hab t v r hv]
          exact ih _ _ h
        | ub => rw [hv] at h; simp at h
        | hang => rw [hv] at h; simp at h
    · rename_i hs
      simp only [hs, if_false, Bool.false_eq_true] at h
      exact ih _ _ h

theorem contains_mono {t : Tab α} {v : α} {f g : Nat} {b : Bool}
    (h : contains hash f t v = .ok b) (hg : f ≤ g) : contains hash g t v = .ok b := by
  unfold contains at h ⊢
  split
  · rename_i hc; simpa [hc] using h
  · rename_i hc
    simp only [hc, if_false] at h
    exact containsLoop_mono h hg

theorem add_mono : ∀ {f g : Nat} {t : Tab α} {v : α} {r : Tab α × Bool},
    add hash f t v = .ok r → f ≤ g → add hash g t v = .ok r := by
  intro f
  induction f with
  | zero => intro g t v r h _; simp [add] at h
  | succ f ih =>
    intro g t v r h hg
    obtain ⟨g, rfl⟩ : ∃ k, g = k + 1 := ⟨g - 1, by omega⟩
    unfold add at h ⊢
    obtain ⟨c, hc, h⟩ := Run.bind_ok h
    rw [contains_mono hc (by omega)]
    simp only [Run.ok_bind]
    cases c
    · simp only [Bool.false_eq_true, if_false] at h ⊢
      split
      · rename_i hr
        simp only [hr, if_true] at h
        obtain ⟨t1, ht1, h⟩ := Run.bind_ok h
        obtain ⟨p, hp, h⟩ := Run.bind_ok h
        unfold resize at ht1 ⊢
        rw [readd_mono (fun t v r hr => ih hr (by omega)) _ _ _ ht1]
        simp only [Run.ok_bind]
        rw [addLoop_mono hp (by omega)]
        exact h
      · rename_i hr
        simp only [hr, if_false] at h
        simp only [Run.pure_eq, Run.ok_bind] at h ⊢
        obtain ⟨p, hp, h⟩ := Run.bind_ok h
        rw [addLoop_mono hp (by omega)]
        exact h
    · simpa using h

theorem step_mono {t : Tab α} {op : Op α} {f g : Nat} {r : Tab α × Ret}
    (h : step hash f t op = .ok r) (hg : f ≤ g) : step hash g t op = .ok r := by
  cases op with
  | add v =>
    simp only [step] at h ⊢
    obtain ⟨c, hc, h⟩ := Run.bind_ok h
    rw [add_mono hc hg]; exact h
  | remove v =>
    simp only [step] at h ⊢
    obtain ⟨c, hc, h⟩ := Run.bind_ok h
    have : remove hash g t v = .ok c := by
      unfold remove at hc ⊢
      split
      · rename_i h0; simpa [h0] using hc
      · rename_i h0
        simp only [h0, if_false] at hc
        exact removeLoop_mono hc hg
    rw [this]; exact h
  | contains v =>
    simp only [step] at h ⊢
    obtain ⟨c, hc, h⟩ := Run.bind_ok h
    rw [contains_mono hc hg]; exact h
  | length => exact h
  | isEmpty => exact h
  | clear => exact h
  | free => exact h

end Verif.HashSet
