import Verif.LineEdit.Model

/-! # Lemmas on the line editor: the memory holds the line -/

namespace Verif.LineEdit

open Spec

theorem cstr_line (t : List Char) (j : Mem Char) (h : NUL ∉ t) :
    cstr (t.map some ++ some NUL :: j) = .ok t := by
  induction t with
  | nil => simp [cstr]
  | cons c t ih =>
    simp only [List.mem_cons, not_or] at h
    have hc : c ≠ NUL := fun e => h.1 e.symm
    simp [cstr, hc, ih h.2]

theorem move_eq (B A : List Char) (j : Mem Char) (d : Nat) (hd : d ≤ B.length + j.length) :
    Mem.memmove (B.map some ++ (A.map some ++ some NUL :: j)) d B.length (A.length + 1) =
      .ok ((B.map some ++ (A.map some ++ some NUL :: j)).take d ++ (A.map some ++ [some NUL]) ++
        (B.map some ++ (A.map some ++ some NUL :: j)).drop (d + (A.length + 1))) := by
  unfold Mem.memmove Mem.memcpy
  rw [if_neg (by omega), if_pos (by simp; omega)]
  congr 2
  congr 1
  rw [List.drop_left' (by simp), show A.map some ++ some NUL :: j = (A.map some ++ [some NUL]) ++ j by simp,
    List.take_left' (by simp)]

theorem take_add (P X : Mem Char) (n k : Nat) (hn : n = P.length) :
    (P ++ X).take (n + k) = P ++ X.take k := by
  subst hn; exact List.take_length_add_append k

theorem drop_add (P X : Mem Char) (n k : Nat) (hn : n = P.length) :
    (P ++ X).drop (n + k) = X.drop k := by
  subst hn; exact List.drop_length_add_append k

/-- The state of the C function stands for the editor `e`. -/
structure Rep (h : List (List Char)) (s : St) (e : Ed) : Prop where
  mem : ∃ j, s.mem = e.before.map some ++ (e.after.map some ++ some NUL :: j)
  cap : s.cap = s.mem.length
  len : s.len = e.before.length + e.after.length
  pos : s.pos = e.before.length
  nul : NUL ∉ e.before ++ e.after
  idx : s.idx = e.at_
  idxle : e.at_ ≤ h.length
  saved : s.saved = e.draft
  draft : ∀ t, e.draft = some t → NUL ∉ t
  search : s.search = e.look.isSome
  look : ∀ p m, e.look = some (p, m) → s.pat = p ∧ s.midx = m ∧ m ≤ h.length

/-- The entries of the history are C strings. -/
def NoNul (h : List (List Char)) : Prop := ∀ t ∈ h, NUL ∉ t

theorem Rep.cstr {h s e} (r : Rep h s e) : LineEdit.cstr s.mem = .ok e.line := by
  obtain ⟨j, hj⟩ := r.mem
  rw [hj, ← List.append_assoc, ← List.map_append]
  exact cstr_line _ _ r.nul

theorem grow_rep {h s e} (r : Rep h s e) :
    Rep h (grow s) e ∧ (grow s).len + 1 < (grow s).cap := by
  obtain ⟨j, hj⟩ := r.mem
  have hc := r.cap
  have hl := r.len
  have hlen : s.mem.length = e.before.length + (e.after.length + (j.length + 1)) := by
    rw [hj]; simp
  unfold grow
  split
  · rename_i hg
    have hle : s.mem.length ≤ s.cap * 2 := by omega
    refine ⟨⟨⟨j ++ List.replicate (s.cap * 2 - s.mem.length) none, ?_⟩, ?_, r.len, r.pos, r.nul,
      r.idx, r.idxle, r.saved, r.draft, r.search, r.look⟩, ?_⟩
    · show Mem.realloc s.mem (s.cap * 2) = _
      unfold Mem.realloc
      rw [List.take_of_length_le hle]
      conv => lhs; arg 1; rw [hj]
      simp
    · exact (Mem.length_realloc _ _ hle).symm
    · show s.len + 1 < s.cap * 2
      omega
  · rename_i hg
    exact ⟨r, by omega⟩

theorem put_rep {h s} {B A : List Char} {a d k} (c : Char) (hc : c ≠ NUL)
    (r : Rep h s ⟨B, A, a, d, k⟩) :
    ∃ s', put c s = .ok s' ∧ Rep h s' ⟨B ++ [c], A, a, d, k⟩ ∧ s.cap ≤ s'.cap := by
  obtain ⟨r1, hroom⟩ := grow_rep r
  have hcap : s.cap ≤ (grow s).cap := by unfold grow; split <;> simp; omega
  unfold put
  revert r1 hroom hcap
  generalize grow s = g
  intro r1 hroom hcap
  obtain ⟨j, hj⟩ := r1.mem
  have hcp := r1.cap
  have hl := r1.len
  have hp := r1.pos
  simp only at hj hl hp
  have hlen : g.mem.length = B.length + (A.length + (j.length + 1)) := by rw [hj]; simp
  have e1 : g.len - g.pos + 1 = A.length + 1 := by omega
  obtain ⟨x, j', rfl⟩ : ∃ x j', j = x :: j' := by
    cases j with
    | nil => simp at hlen; omega
    | cons x j' => exact ⟨x, j', rfl⟩
  have hm : Mem.memmove g.mem (g.pos + 1) g.pos (g.len - g.pos + 1) =
      .ok (B.map some ++ ((A.map some ++ some NUL :: x :: j').take 1 ++
        (A.map some ++ some NUL :: j'))) := by
    rw [hj, e1, hp, move_eq B A (x :: j') (B.length + 1) (by simp)]
    rw [take_add _ _ _ _ (by simp), Nat.add_assoc, drop_add _ _ _ _ (by simp)]
    rw [show 1 + (A.length + 1) = A.length + 2 by omega, drop_add _ _ _ _ (by simp)]
    simp
  obtain ⟨y, hy⟩ : ∃ y, (A.map some ++ some NUL :: x :: j').take 1 = [y] := by
    cases A <;> simp
  rw [hy] at hm
  have hs : Mem.store (B.map some ++ ([y] ++ (A.map some ++ some NUL :: j'))) g.pos c =
      .ok (B.map some ++ (some c :: (A.map some ++ some NUL :: j'))) := by
    unfold Mem.store
    rw [if_pos (by simp [hp]), hp]
    simp
  simp only [hm, hs, Res.ok_bind]
  refine ⟨_, rfl, ⟨⟨j', by simp⟩, ?_, ?_, ?_, ?_, r1.idx, r1.idxle,
    r1.saved, r1.draft, r1.search, r1.look⟩, hcap⟩
  · simp only [List.length_append, List.length_cons, List.length_map] at hlen ⊢; omega
  · simp; omega
  · simp; omega
  · have := r1.nul
    simp only [List.mem_append, not_or] at this ⊢
    simp [this, hc.symm]

theorem back_rep {h s} {B A : List Char} {c : Char} {a d k}
    (r : Rep h s ⟨B ++ [c], A, a, d, k⟩) :
    ∃ s', back s = .ok s' ∧ Rep h s' ⟨B, A, a, d, k⟩ ∧ s'.cap = s.cap := by
  obtain ⟨j, hj⟩ := r.mem
  have hcp := r.cap
  have hl := r.len
  have hp := r.pos
  simp only at hj hl hp
  have hlen : s.mem.length = B.length + 1 + (A.length + (j.length + 1)) := by
    rw [hj]; simp; omega
  have hm : Mem.memmove s.mem (s.pos - 1) s.pos (s.len - s.pos + 1) =
      .ok (B.map some ++ (A.map some ++ some NUL ::
        (((some c :: (A.map some ++ some NUL :: j)).drop (A.length + 1))))) := by
    rw [hj, hp, show s.len - (B ++ [c]).length + 1 = A.length + 1 by simp at hl ⊢; omega,
      move_eq (B ++ [c]) A j ((B ++ [c]).length - 1) (by simp; omega),
      show (B ++ [c]).map some ++ (A.map some ++ some NUL :: j) =
        B.map some ++ (some c :: (A.map some ++ some NUL :: j)) by simp,
      show (B ++ [c]).length - 1 = B.length + 0 by simp,
      take_add _ _ _ _ (by simp), Nat.add_assoc, drop_add _ _ _ _ (by simp)]
    simp
  unfold back
  rw [if_pos (by simp at hp; omega)]
  simp only [hm, Res.ok_bind]
  refine ⟨_, rfl, ⟨⟨_, rfl⟩, ?_, ?_, ?_, ?_, r.idx, r.idxle, r.saved, r.draft, r.search, r.look⟩,
    rfl⟩
  · simp [hcp, hlen]; omega
  · simp at hl ⊢; omega
  · simp at hp ⊢; omega
  · have := r.nul
    simp only [List.mem_append, not_or] at this ⊢
    exact ⟨this.1.1, this.2⟩

theorem toStart_rep {h s} {B A : List Char} {a d k} (r : Rep h s ⟨B, A, a, d, k⟩) :
    ∃ m, Mem.memmove s.mem 0 s.pos (s.len - s.pos + 1) = .ok m ∧
      Rep h { s with mem := m, len := s.len - s.pos, pos := 0 } ⟨[], A, a, d, k⟩ := by
  obtain ⟨j, hj⟩ := r.mem
  have hcp := r.cap
  have hl := r.len
  have hp := r.pos
  simp only at hj hl hp
  have hlen : s.mem.length = B.length + (A.length + (j.length + 1)) := by rw [hj]; simp
  have hm : Mem.memmove s.mem 0 s.pos (s.len - s.pos + 1) =
      .ok (A.map some ++ some NUL ::
        (B.map some ++ (A.map some ++ some NUL :: j)).drop (A.length + 1)) := by
    rw [hj, hp, show s.len - B.length + 1 = A.length + 1 by omega, move_eq B A j 0 (by simp)]
    simp
  refine ⟨_, hm, ⟨⟨_, rfl⟩, ?_, ?_, ?_, ?_, r.idx, r.idxle, r.saved, r.draft, r.search,
    r.look⟩⟩
  · simp [hcp, hlen]; omega
  · simp; omega
  · simp
  · have := r.nul
    simp only [List.mem_append, not_or] at this ⊢
    exact ⟨by simp, this.2⟩

theorem toEnd_rep {h s} {B A : List Char} {a d k} (r : Rep h s ⟨B, A, a, d, k⟩) :
    ∃ m, Mem.store s.mem s.pos NUL = .ok m ∧
      Rep h { s with mem := m, len := s.pos } ⟨B, [], a, d, k⟩ := by
  obtain ⟨j, hj⟩ := r.mem
  have hcp := r.cap
  have hl := r.len
  have hp := r.pos
  simp only at hj hl hp
  obtain ⟨x, X, hX⟩ : ∃ x X, A.map some ++ some NUL :: j = x :: X := by
    cases A <;> simp
  have hlen : s.mem.length = B.length + (X.length + 1) := by rw [hj, hX]; simp
  have hm : Mem.store s.mem s.pos NUL = .ok (B.map some ++ some NUL :: X) := by
    unfold Mem.store
    rw [if_pos (by omega), hj, hX, hp]
    simp
  refine ⟨_, hm, ⟨⟨X, by simp⟩, ?_, ?_, hp, ?_, r.idx, r.idxle, r.saved, r.draft, r.search,
    r.look⟩⟩
  · simp [hcp, hlen]
  · simp [hp]
  · have := r.nul
    simp only [List.mem_append, not_or] at this ⊢
    exact ⟨this.1, by simp⟩

theorem recall_rep {h s} {e : Ed} {t : List Char} (r : Rep h s e) (ht : NUL ∉ t) :
    Rep h (recall t s) { e with before := t, after := [] } := by
  refine ⟨⟨[], by simp [recall, dup]⟩, by simp [recall, dup], by simp [recall], by simp [recall],
    by simpa using ht, r.idx, r.idxle, r.saved, r.draft, r.search, r.look⟩

/-! ### Searching -/

theorem strstr_iff (s p : List Char) : strstr s p = true ↔ p <:+: s := by
  induction s with
  | nil => simp [strstr]
  | cons c s ih =>
    rw [strstr]
    simp only [Bool.or_eq_true, ih, List.isPrefixOf_iff_prefix]
    exact List.infix_cons_iff.symm

theorem findBack_some {h : List (List Char)} {p : List Char} {n i : Nat} (hn : n ≤ h.length)
    (hf : findBack h p n = some i) : Latest h p n i := by
  induction n with
  | zero => simp [findBack] at hf
  | succ n ih =>
    have hg : h[n]? = some (h.getD n []) := by
      rw [List.getElem?_eq_getElem (by omega)]
      simp [List.getD, List.getElem?_eq_getElem (show n < h.length by omega)]
    rw [findBack] at hf
    split at hf
    · rename_i hs
      injection hf with hf
      subst hf
      exact ⟨by omega, ⟨_, hg, (strstr_iff _ _).1 hs⟩, fun j t h1 h2 => by omega⟩
    · rename_i hs
      obtain ⟨h1, h2, h3⟩ := ih (by omega) hf
      refine ⟨by omega, h2, fun j t hj1 hj2 ht => ?_⟩
      by_cases e : j = n
      · subst e
        rw [hg] at ht
        injection ht with ht
        subst ht
        exact fun hi => hs ((strstr_iff _ _).2 hi)
      · exact h3 j t hj1 (by omega) ht

theorem findBack_none {h : List (List Char)} {p : List Char} {n : Nat}
    (hf : findBack h p n = none) : ∀ i, ¬ Latest h p n i := by
  induction n with
  | zero => intro i hi; exact absurd hi.1 (by omega)
  | succ n ih =>
    rw [findBack] at hf
    split at hf
    · simp at hf
    · rename_i hs
      intro i hi
      by_cases e : i = n
      · subst e
        obtain ⟨t, ht, hp⟩ := hi.2.1
        apply hs
        rw [strstr_iff]
        simp [List.getD, ht, hp]
      · exact ih hf i ⟨by have := hi.1; omega, hi.2.1, fun j t h1 h2 => hi.2.2 j t h1 (by omega)⟩

theorem latest_unique {h : List (List Char)} {p : List Char} {n i j : Nat}
    (hi : Latest h p n i) (hj : Latest h p n j) : i = j := by
  obtain ⟨t, ht, hpt⟩ := hi.2.1
  obtain ⟨u, hu, hpu⟩ := hj.2.1
  by_cases h1 : i < j
  · exact absurd hpu (hi.2.2 j u h1 hj.1 hu)
  · by_cases h2 : j < i
    · exact absurd hpt (hj.2.2 i t h2 hi.1 ht)
    · omega

/-- The search of the model does what a search should. -/
theorem search_rep {h : List (List Char)} {s : St} {e : Ed} {p : List Char} {m n : Nat}
    (hh : NoNul h) (hn : n ≤ h.length) (r : Rep h s { e with look := some (p, m) }) {e' : Ed}
    (hl : Looked h p n m e e') : Rep h (search h n s) e' := by
  obtain ⟨hp, hm, hmn⟩ := r.look p m rfl
  unfold search
  cases hl with
  | @found i t hL ht =>
    have hf : findBack h s.pat n = some i := by
      rw [hp]
      cases hf : findBack h p n with
      | none => exact absurd hL (findBack_none hf i)
      | some k => rw [latest_unique (findBack_some hn hf) hL]
    rw [hf]
    simp only
    have hg : h.getD i [] = t := by simp [List.getD, ht]
    rw [hg]
    have hnul : NUL ∉ t := hh t (List.mem_of_getElem? ht)
    have hi : i ≤ h.length := by have := hL.1; omega
    exact recall_rep (s := { s with midx := i, idx := i })
      (e := { e with at_ := i, look := some (p, i) })
      ⟨r.mem, r.cap, r.len, r.pos, r.nul, rfl, hi, r.saved, r.draft, r.search,
        fun p' m' he => by injection he with he; injection he with h1 h2; subst h1 h2
                           exact ⟨hp, rfl, hi⟩⟩ hnul
  | missed hL =>
    have hf : findBack h s.pat n = none := by
      rw [hp]
      cases hf : findBack h p n with
      | none => rfl
      | some k => exact absurd (findBack_some hn hf) (hL k)
    rw [hf]
    exact r

/-- A search always has an outcome. -/
theorem looked_total (h : List (List Char)) (p : List Char) (n m : Nat) (e : Ed)
    (hn : n ≤ h.length) : ∃ e', Looked h p n m e e' := by
  cases hf : findBack h p n with
  | none => exact ⟨_, .missed (findBack_none hf)⟩
  | some k =>
    have hL := findBack_some hn hf
    obtain ⟨t, ht, -⟩ := hL.2.1
    exact ⟨_, .found hL ht⟩

end Verif.LineEdit
