import Verif.LineEdit.Lemmas

/-! # Lemmas on the line editor: every key does what it should -/

namespace Verif.LineEdit

open Spec

theorem printable_ne {c d : Char} (h1 : 32 ≤ c.toNat) (h : d.toNat < 32) : c ≠ d := by
  intro e; subst e; omega

theorem iscntrl_printable {c : Char} (h1 : 32 ≤ c.toNat) (h2 : c.toNat ≠ 127) :
    iscntrl c = false := by
  simp [iscntrl, h2]; omega

/-- A printable byte reaches the last branches. -/
theorem byte_printable (h : List (List Char)) (c : Char) (s : St) (h1 : 32 ≤ c.toNat)
    (h2 : c.toNat ≠ 127) :
    byte h c s = if s.search then .ok (.go (searchByte h c s)) else
      (do .ok (.go (← put c s))) := by
  have h127 : c ≠ '\x7f' := fun e => h2 (by subst e; rfl)
  have ne : ∀ d : Char, d.toNat < 32 → c ≠ d := fun d hd => printable_ne h1 hd
  unfold byte
  rw [if_neg (fun e => e.elim h127 (ne '\x08' (by decide))),
    if_neg (fun e => e.elim (ne '\r' (by decide)) (ne '\n' (by decide))),
    if_neg (ne '\x03' (by decide)), if_neg (ne '\x04' (by decide)), if_neg (ne '\t' (by decide)),
    if_neg (ne '\x12' (by decide))]
  split
  · rfl
  · rw [if_neg (ne '\x01' (by decide)), if_neg (ne '\x05' (by decide)),
      if_neg (ne '\x0c' (by decide)), if_neg (ne '\x15' (by decide)),
      if_neg (ne '\x0b' (by decide)), if_neg (ne '\x0e' (by decide)),
      if_pos (by simp [iscntrl_printable h1 h2])]

theorem loop_go {h : List (List Char)} {c : Char} {r : List Char} {s s' : St} (hc : c ≠ ESC)
    (hb : byte h c s = .ok (.go s')) : loop h (c :: r) s = loop h r s' := by
  rw [loop.eq_def]
  simp only [if_neg hc, hb]

theorem loop_esc {h : List (List Char)} {a b : Char} {r : List Char} {s s' : St}
    (hb : escape h a b s = .ok s') : loop h (ESC :: a :: b :: r) s = loop h r s' := by
  rw [loop.eq_def]
  simp only [if_true, hb]

theorem up_rep {h s} {e : Ed} {i : Nat} {t : List Char} (hh : NoNul h) (r : Rep h s e)
    (hi : e.at_ = i + 1) (ht : h[i]? = some t) :
    ∃ s', up h s = .ok s' ∧ Rep h s'
        { e with before := t, after := [], at_ := i,
                 draft := if e.at_ = h.length then some e.line else e.draft } := by
  have hidx : s.idx = i + 1 := by rw [r.idx, hi]
  have hil : i < h.length := (List.getElem?_eq_some_iff.1 ht).1
  have hnul : NUL ∉ t := hh t (List.mem_of_getElem? ht)
  unfold up
  rw [if_pos (by omega)]
  by_cases hl : s.idx = h.length
  · have hl' : e.at_ = h.length := by rw [← r.idx]; exact hl
    rw [if_pos hl, r.cstr]
    simp only [Res.ok_bind, hidx, Nat.add_sub_cancel, ht, if_pos hl']
    refine ⟨_, rfl, recall_rep (e := { e with at_ := i, draft := some e.line })
      (s := { s with saved := some e.line, idx := i }) ⟨r.mem, r.cap, r.len, r.pos, r.nul, rfl,
        by simp only; omega, rfl, fun u hu => ?_, r.search, r.look⟩ hnul⟩
    injection hu with hu
    subst hu
    exact r.nul
  · have hl' : ¬ e.at_ = h.length := by rw [← r.idx]; exact hl
    rw [if_neg hl]
    simp only [Res.ok_bind, hidx, Nat.add_sub_cancel, ht, if_neg hl']
    exact ⟨_, rfl, recall_rep (e := { e with at_ := i })
      (s := { s with idx := i }) ⟨r.mem, r.cap, r.len, r.pos, r.nul, rfl,
        by simp only; omega, r.saved, r.draft, r.search, r.look⟩ hnul⟩

theorem down_rep {h s} {e : Ed} {t : List Char} (hh : NoNul h) (r : Rep h s e)
    (hl : e.at_ < h.length) (ht : h[e.at_ + 1]? = some t) :
    ∃ s', down h s = .ok s' ∧ Rep h s' { e with before := t, after := [], at_ := e.at_ + 1 } := by
  have hil : e.at_ + 1 < h.length := (List.getElem?_eq_some_iff.1 ht).1
  have hnul : NUL ∉ t := hh t (List.mem_of_getElem? ht)
  unfold down
  rw [r.idx, if_pos hl]
  simp only [if_neg (show ¬ e.at_ + 1 = h.length by omega), ht]
  exact ⟨_, rfl, recall_rep (e := { e with at_ := e.at_ + 1 })
      (s := { s with idx := e.at_ + 1 }) ⟨r.mem, r.cap, r.len, r.pos, r.nul, rfl,
        by simp only; omega, r.saved, r.draft, r.search, r.look⟩ hnul⟩

theorem down_draft_rep {h s} {e : Ed} (r : Rep h s e) (hl : e.at_ + 1 = h.length) :
    ∃ s', down h s = .ok s' ∧
      Rep h s' { e with before := e.draft.getD [], after := [], at_ := e.at_ + 1 } := by
  have hnul : NUL ∉ e.draft.getD [] := by
    cases hd : e.draft with
    | none => simp
    | some t => exact r.draft t hd
  unfold down
  rw [r.idx, if_pos (show e.at_ < h.length by omega)]
  rw [if_pos hl]
  refine ⟨_, rfl, ?_⟩
  rw [show s.saved.getD [] = e.draft.getD [] by rw [r.saved]]
  exact recall_rep (e := { e with at_ := e.at_ + 1 })
      (s := { s with idx := e.at_ + 1 }) ⟨r.mem, r.cap, r.len, r.pos, r.nul, rfl,
        by simp only; omega, r.saved, r.draft, r.search, r.look⟩ hnul

/-- The search after a key: the state with the text looked for stands for `e` with it. -/
theorem Rep.looking {h s} {e : Ed} (r : Rep h s e) (p : List Char) (m : Nat) (hm : m ≤ h.length) :
    Rep h { s with search := true, pat := p, midx := m } { e with look := some (p, m) } :=
  ⟨r.mem, r.cap, r.len, r.pos, r.nul, r.idx, r.idxle, r.saved, r.draft, rfl,
    fun p' m' he => by injection he with he; injection he with h1 h2; subst h1 h2
                       exact ⟨rfl, rfl, hm⟩⟩

theorem Rep.found {h s} {e : Ed} (r : Rep h s e) {p m} (hl : e.look = some (p, m)) :
    s = { s with search := true, pat := p, midx := m } := by
  obtain ⟨h1, h2, -⟩ := r.look p m hl
  have h3 := r.search
  rw [hl] at h3
  cases s
  simp only [Option.isSome] at h1 h2 h3
  subst h1 h2 h3
  rfl

/-- Every key does to the memory what it should do to the line. -/
theorem key_rep {h : List (List Char)} {s : St} {e e' : Ed} {k : Key} (hh : NoNul h) (hk : k.ok)
    (hb : k = .backspace → e.look = none) (st : Step h k e e') (r : Rep h s e) (rest : List Char) :
    ∃ s', loop h (bytes k ++ rest) s = loop h rest s' ∧ Rep h s' e' ∧
      (k ≠ .older → k ≠ .newer → k ≠ .lookup → e.look = none → s.cap ≤ s'.cap) := by
  cases st with
  | @char c e hl =>
    obtain ⟨h1, h2⟩ := hk
    have hs : s.search = false := by rw [r.search, hl]; rfl
    obtain ⟨s', hp, hr, hcap⟩ := put_rep c (fun e => by subst e; simp [NUL] at h1) r
    refine ⟨s', loop_go (printable_ne h1 (by decide)) ?_, hr, fun _ _ _ _ => hcap⟩
    rw [byte_printable h c s h1 h2, hs, hp]
    rfl
  | @left l x c a d kk =>
    obtain ⟨j, hj⟩ := r.mem
    have hl := r.len
    have hp := r.pos
    simp only [List.length_append, List.length_cons, List.length_nil] at hl hp
    refine ⟨{ s with pos := s.pos - 1 }, loop_esc (a := '[') (b := 'D') (by
        show Res.ok (if s.pos > 0 then { s with pos := s.pos - 1 } else s) = _
        rw [if_pos (by omega)]), ⟨⟨j, by simp [hj]⟩, r.cap, by simp; omega,
      by simp; omega, ?_, r.idx, r.idxle, r.saved, r.draft, r.search, r.look⟩,
      fun _ _ _ _ => Nat.le_refl _⟩
    have := r.nul
    simpa using this
  | leftStop =>
    have hp := r.pos
    simp only [List.length_nil] at hp
    exact ⟨s, loop_esc (a := '[') (b := 'D') (by
        show Res.ok (if s.pos > 0 then { s with pos := s.pos - 1 } else s) = _
        rw [if_neg (by omega)]), r, fun _ _ _ _ => Nat.le_refl _⟩
  | @right l x c a d kk =>
    obtain ⟨j, hj⟩ := r.mem
    have hl := r.len
    have hp := r.pos
    simp only [List.length_cons] at hl hp
    refine ⟨{ s with pos := s.pos + 1 }, loop_esc (a := '[') (b := 'C') (by
        show Res.ok (if s.pos < s.len then { s with pos := s.pos + 1 } else s) = _
        rw [if_pos (by omega)]), ⟨⟨j, by simp [hj]⟩, r.cap, by simp; omega,
      by simp; omega, ?_, r.idx, r.idxle, r.saved, r.draft, r.search, r.look⟩,
      fun _ _ _ _ => Nat.le_refl _⟩
    have := r.nul
    simpa using this
  | rightStop =>
    have hl := r.len
    have hp := r.pos
    simp only [List.length_nil] at hl hp
    exact ⟨s, loop_esc (a := '[') (b := 'C') (by
        show Res.ok (if s.pos < s.len then { s with pos := s.pos + 1 } else s) = _
        rw [if_neg (by omega)]), r, fun _ _ _ _ => Nat.le_refl _⟩
  | home =>
    obtain ⟨j, hj⟩ := r.mem
    have hl := r.len
    exact ⟨{ s with pos := 0 }, loop_esc (a := '[') (b := 'H') rfl,
      ⟨⟨j, by simp [hj, Ed.line]⟩, r.cap, by simp [Ed.line]; omega, rfl,
        by simpa [Ed.line] using r.nul, r.idx, r.idxle, r.saved, r.draft, r.search, r.look⟩,
      fun _ _ _ _ => Nat.le_refl _⟩
  | fin =>
    obtain ⟨j, hj⟩ := r.mem
    have hl := r.len
    exact ⟨{ s with pos := s.len }, loop_esc (a := '[') (b := 'F') rfl,
      ⟨⟨j, by simp [hj, Ed.line]⟩, r.cap, by simp [Ed.line]; omega, by simp [Ed.line]; omega,
        by simpa [Ed.line] using r.nul, r.idx, r.idxle, r.saved, r.draft, r.search, r.look⟩,
      fun _ _ _ _ => Nat.le_refl _⟩
  | first hl0 =>
    have hs : s.search = false := by rw [r.search, hl0]; rfl
    obtain ⟨j, hj⟩ := r.mem
    have hl := r.len
    exact ⟨{ s with pos := 0 }, loop_go (by decide) (by simp [byte, hs]),
      ⟨⟨j, by simp [hj, Ed.line]⟩, r.cap, by simp [Ed.line]; omega, rfl,
        by simpa [Ed.line] using r.nul, r.idx, r.idxle, r.saved, r.draft, r.search, r.look⟩,
      fun _ _ _ _ => Nat.le_refl _⟩
  | last hl0 =>
    have hs : s.search = false := by rw [r.search, hl0]; rfl
    obtain ⟨j, hj⟩ := r.mem
    have hl := r.len
    exact ⟨{ s with pos := s.len }, loop_go (by decide) (by simp [byte, hs]),
      ⟨⟨j, by simp [hj, Ed.line]⟩, r.cap, by simp [Ed.line]; omega, by simp [Ed.line]; omega,
        by simpa [Ed.line] using r.nul, r.idx, r.idxle, r.saved, r.draft, r.search, r.look⟩,
      fun _ _ _ _ => Nat.le_refl _⟩
  | @backspace l x c a d =>
    obtain ⟨s', hp, hr, hcap⟩ := back_rep r
    refine ⟨s', loop_go (by decide) (by simp [byte, hp]), hr,
      fun _ _ _ _ => by omega⟩
  | backStop =>
    have hp := r.pos
    simp only [List.length_nil] at hp
    have hp' : back s = .ok s := by unfold back; rw [if_neg (by omega)]
    refine ⟨s, loop_go (by decide) (by simp [byte, hp']), r,
      fun _ _ _ _ => Nat.le_refl _⟩
  | backLook hl => rw [hb rfl] at hl; simp at hl
  | backLookStop hl => rw [hb rfl] at hl; simp at hl
  | toStart hl =>
    have hs : s.search = false := by rw [r.search, hl]; rfl
    have hp := r.pos
    by_cases h0 : s.pos > 0
    · obtain ⟨m, hm, hr⟩ := toStart_rep r
      refine ⟨_, loop_go (by decide) ?_, hr, fun _ _ _ _ => Nat.le_refl _⟩
      simp [byte, hs, h0, hm]
    · have hB : e.before = [] := List.eq_nil_of_length_eq_zero (by omega)
      refine ⟨s, loop_go (by decide) ?_, ?_, fun _ _ _ _ => Nat.le_refl _⟩
      · simp [byte, hs, h0]
      · have he : { e with before := [] } = e := by cases e; simp only at hB; subst hB; rfl
        rw [he]; exact r
  | toEnd hl =>
    have hs : s.search = false := by rw [r.search, hl]; rfl
    obtain ⟨m, hm, hr⟩ := toEnd_rep r
    refine ⟨_, loop_go (by decide) ?_, hr, fun _ _ _ _ => Nat.le_refl _⟩
    simp [byte, hs, hm]
  | older hi ht =>
    obtain ⟨s', hu, hr⟩ := up_rep hh r hi ht
    exact ⟨s', loop_esc (a := '[') (b := 'A') hu, hr, fun h1 => absurd rfl h1⟩
  | olderStop h0 =>
    refine ⟨s, loop_esc (a := '[') (b := 'A') ?_, r, fun h1 => absurd rfl h1⟩
    show up h s = _
    unfold up
    rw [if_neg (by rw [r.idx]; omega)]
  | newer hl ht =>
    obtain ⟨s', hu, hr⟩ := down_rep hh r hl ht
    exact ⟨s', loop_esc (a := '[') (b := 'B') hu, hr, fun _ h1 => absurd rfl h1⟩
  | newerDraft hl ht =>
    obtain ⟨s', hu, hr⟩ := down_draft_rep r ht
    exact ⟨s', loop_esc (a := '[') (b := 'B') hu, hr, fun _ h1 => absurd rfl h1⟩
  | newerStop h0 =>
    refine ⟨s, loop_esc (a := '[') (b := 'B') ?_, r, fun _ h1 => absurd rfl h1⟩
    show down h s = _
    unfold down
    rw [if_neg (by rw [r.idx]; omega)]
  | lookup hl hL =>
    have hs : s.search = false := by rw [r.search, hl]; rfl
    refine ⟨ctrlR h s, loop_go (by decide) (by simp [byte]), ?_, fun _ _ h1 => absurd rfl h1⟩
    have := search_rep hh (Nat.le_refl _) (r.looking [] h.length (Nat.le_refl _)) hL
    simpa [ctrlR, hs] using this
  | @lookAgain e e' p m hl hL =>
    have hs : s.search = true := by rw [r.search, hl]; rfl
    obtain ⟨h1, h2, h3⟩ := r.look p m hl
    refine ⟨ctrlR h s, loop_go (by decide) (by simp [byte]), ?_, fun _ _ h1 => absurd rfl h1⟩
    have r' : Rep h s { e with look := some (p, m) } := by rw [← hl]; exact r
    have := search_rep hh h3 r' hL
    simpa [ctrlR, hs, h2, Nat.min_eq_left h3] using this
  | @lookChar e e' p m c hl h255 hL =>
    obtain ⟨hk1, hk2⟩ := hk
    have hs : s.search = true := by rw [r.search, hl]; rfl
    obtain ⟨h1, h2, h3⟩ := r.look p m hl
    have hs' := r.found hl
    refine ⟨searchByte h c s, loop_go (printable_ne hk1 (by decide)) ?_, ?_,
      fun _ _ _ h0 => by rw [hl] at h0; simp at h0⟩
    · rw [byte_printable h c s hk1 hk2, hs]; rfl
    · unfold searchByte
      rw [if_neg (printable_ne hk1 (by decide)),
        if_pos (by simp [iscntrl_printable hk1 hk2]), h1, if_pos h255]
      have := search_rep (s := { s with pat := p ++ [c] }) hh (Nat.le_refl _) (by
        have := r.looking (p ++ [c]) m h3
        rwa [show ({ s with search := true, pat := p ++ [c], midx := m } : St) =
          { s with pat := p ++ [c] } by rw [← hs, ← h2]] at this) hL
      exact this
  | leave =>
    by_cases hs : s.search = true
    · refine ⟨{ s with search := false }, loop_go (by decide) (by simp [byte, hs, searchByte]),
        ⟨r.mem, r.cap, r.len, r.pos, r.nul, r.idx, r.idxle, r.saved, r.draft, rfl, ?_⟩,
        fun _ _ _ _ => Nat.le_refl _⟩
      intro p m he; simp at he
    · have hs : s.search = false := by simpa using hs
      refine ⟨s, loop_go (by decide) (by simp [byte, hs, iscntrl]),
        ⟨r.mem, r.cap, r.len, r.pos, r.nul, r.idx, r.idxle, r.saved, r.draft, hs, ?_⟩,
        fun _ _ _ _ => Nat.le_refl _⟩
      intro p m he; simp at he

/-! ### The start -/

structure Ind (s : St) (n N : Nat) : Prop where
  mem : ∃ x j, s.mem = List.replicate n (some ' ') ++ x :: j
  len : s.len = n
  cap : s.cap = s.mem.length
  big : 1024 ≤ s.cap
  rest : s.pos = 0 ∧ s.idx = N ∧ s.saved = none ∧ s.search = false

theorem indent1_ind {s : St} {n N : Nat} (i : Ind s n N) :
    ∃ s', indent1 s = .ok s' ∧ Ind s' (n + 1) N := by
  have hg : Ind (grow s) n N ∧ (grow s).len + 1 < (grow s).cap := by
    obtain ⟨x, j, hj⟩ := i.mem
    have hc := i.cap
    have hb := i.big
    unfold grow
    split
    · refine ⟨⟨⟨x, j ++ List.replicate (s.cap * 2 - s.mem.length) none, ?_⟩, i.len, ?_, ?_,
        i.rest⟩, ?_⟩
      · show Mem.realloc s.mem (s.cap * 2) = _
        unfold Mem.realloc
        rw [List.take_of_length_le (by omega)]
        conv => lhs; arg 1; rw [hj]
        simp
      · exact (Mem.length_realloc _ _ (by show s.mem.length ≤ s.cap * 2; omega)).symm
      · show 1024 ≤ s.cap * 2
        omega
      · show s.len + 1 < s.cap * 2
        have : s.mem.length = n + (j.length + 1) := by rw [hj]; simp
        have := i.len
        omega
    · exact ⟨i, by omega⟩
  unfold indent1
  revert hg
  generalize grow s = g
  rintro ⟨i, hr⟩
  obtain ⟨x, j, hj⟩ := i.mem
  have hc := i.cap
  have hn := i.len
  have hlen : g.mem.length = n + (j.length + 1) := by rw [hj]; simp
  obtain ⟨y, j', rfl⟩ : ∃ y j', j = y :: j' := by
    cases j with
    | nil => simp at hlen; omega
    | cons y j' => exact ⟨y, j', rfl⟩
  have hs : Mem.store g.mem g.len ' ' =
      .ok (List.replicate (n + 1) (some ' ') ++ y :: j') := by
    unfold Mem.store
    rw [if_pos (by omega), hj, hn]
    rw [List.set_append_right _ _ (by simp)]
    simp [List.replicate_succ']
  simp only [hs, Res.ok_bind]
  exact ⟨_, rfl, ⟨y, j', rfl⟩, by simp [hn], by simp [hc, hlen]; omega, i.big, i.rest⟩

theorem indentN_ind {m : Nat} {s : St} {n N : Nat} (i : Ind s n N) :
    ∃ s', indentN m s = .ok s' ∧ Ind s' (n + m) N := by
  induction m generalizing s n with
  | zero => exact ⟨s, rfl, i⟩
  | succ m ih =>
    obtain ⟨s1, h1, i1⟩ := indent1_ind i
    obtain ⟨s2, h2, i2⟩ := ih i1
    refine ⟨s2, by simp only [indentN, h1, Res.ok_bind, h2], ?_⟩
    rwa [show n + (m + 1) = n + 1 + m by omega]

theorem init_rep (h : List (List Char)) (ind : Nat) :
    ∃ s, init h.length ind = .ok s ∧ Rep h s (start h ind) ∧ 1024 ≤ s.cap := by
  obtain ⟨J, hJ, hm⟩ : ∃ J : Mem Char, J.length = 1023 ∧
      (Mem.malloc 1024 : Mem Char).store 0 NUL = .ok (some NUL :: J) := by
    refine ⟨List.replicate 1023 none, List.length_replicate, ?_⟩
    unfold Mem.store
    rw [if_pos (by rw [Mem.malloc, List.length_replicate]; omega), Mem.malloc,
      show (1024 : Nat) = 1023 + 1 from rfl, List.replicate_succ, List.set_cons_zero]
  unfold init
  simp only [hm, Res.ok_bind]
  by_cases h0 : ind > 0
  · rw [if_pos h0]
    obtain ⟨s, hs, i⟩ := indentN_ind (m := ind * 4) (n := 0) (N := h.length)
      (s := { mem := some NUL :: J, cap := 1024, len := 0, pos := 0,
              idx := h.length, saved := none, search := false, pat := [], midx := 0 })
      ⟨⟨some NUL, J, by simp⟩, rfl, by simp [hJ], by simp, rfl, rfl, rfl, rfl⟩
    obtain ⟨x, j, hj⟩ := i.mem
    have hc := i.cap
    have hn := i.len
    obtain ⟨hp, hi, hsv, hse⟩ := i.rest
    have hlen : s.mem.length = ind * 4 + (j.length + 1) := by rw [hj]; simp
    have hst : Mem.store s.mem s.len NUL =
        .ok (List.replicate (ind * 4) (some ' ') ++ some NUL :: j) := by
      unfold Mem.store
      rw [if_pos (by omega), hj, hn]
      rw [List.set_append_right _ _ (by simp)]
      simp
    simp only [hs, Res.ok_bind, hst]
    refine ⟨_, rfl, ⟨⟨j, ?_⟩, ?_, ?_, ?_, ?_, hi, Nat.le_refl _, hsv, ?_, hse, ?_⟩, i.big⟩
    · simp [start, Nat.mul_comm]
    · simp [hc, hlen]
    · simp [start, hn]; omega
    · simp [start, hn]; omega
    · simp only [start, List.append_nil]
      intro hx
      have := List.eq_of_mem_replicate hx
      exact absurd this (by decide)
    · simp [start]
    · simp [start]
  · rw [if_neg h0]
    have : ind = 0 := by omega
    subst this
    refine ⟨_, rfl, ⟨⟨J, by simp [start]⟩, by simp [hJ], rfl, rfl,
      by simp [start], rfl, Nat.le_refl _, rfl, by simp [start], rfl, by simp [start]⟩,
      Nat.le_refl _⟩

/-! ### Completion -/

theorem loadN_take (B : List Char) (X : Mem Char) (n : Nat) (hn : n ≤ B.length) :
    loadN (B.map some ++ X) n = .ok (B.take n) := by
  induction n with
  | zero => rfl
  | succ n ih =>
    rw [loadN, ih (by omega)]
    have hl : Mem.load (B.map some ++ X) n = .ok B[n] := by
      rw [Mem.load_ok_iff, List.getElem?_append_left (by simp; omega)]
      simp [List.getElem?_eq_getElem (show n < B.length by omega)]
    simp only [Res.ok_bind, hl]
    rw [List.take_succ_eq_append_getElem (by omega)]

theorem table_nul : ∀ w ∈ (keywords ++ commands).map String.toList, NUL ∉ w := by
  decide +kernel

theorem complete_nul {b w : List Char} (h : complete b = some w) : NUL ∉ w := by
  unfold complete at h
  simp only at h
  split at h
  · simp at h
  · split at h
    · simp at h
    · split at h
      · rename_i v hv
        injection h with h
        subst h
        have hm : v ∈ (keywords ++ commands).map String.toList := by
          have : v ∈ [v] := by simp
          rw [← hv] at this
          rw [List.map_append]
          rcases List.mem_append.1 this with h1 | h1
          · exact List.mem_append_left _ ((List.mem_filter.1 h1).1)
          · split at h1
            · exact List.mem_append_right _ ((List.mem_filter.1 h1).1)
            · simp at h1
        exact fun hn => table_nul v hm (List.mem_of_mem_drop hn)
      · simp at h

theorem tab_none {h s} {B A : List Char} {a d k} (r : Rep h s ⟨B, A, a, d, k⟩)
    (hc : complete B = none) : tab s = .ok s := by
  obtain ⟨j, hj⟩ := r.mem
  have hp := r.pos
  simp only at hj hp
  unfold tab
  rw [hj, hp, loadN_take B _ _ (Nat.le_refl _), List.take_length]
  simp [hc]

theorem tab_full {h s} {B A w : List Char} {a d k} (r : Rep h s ⟨B, A, a, d, k⟩)
    (hc : complete B = some w) (hr : s.cap - 1 ≤ s.len + w.length) : tab s = .ok s := by
  obtain ⟨j, hj⟩ := r.mem
  have hp := r.pos
  simp only at hj hp
  unfold tab
  rw [hj, hp, loadN_take B _ _ (Nat.le_refl _), List.take_length]
  simp only [Res.ok_bind, hc]
  rw [if_neg (by omega)]

theorem tab_room {h s} {B A w : List Char} {a d k} (r : Rep h s ⟨B, A, a, d, k⟩)
    (hc : complete B = some w) (hr : s.len + w.length < s.cap - 1) :
    ∃ s', tab s = .ok s' ∧ Rep h s' ⟨B ++ w, A, a, d, k⟩ ∧ s'.cap = s.cap := by
  obtain ⟨j, hj⟩ := r.mem
  have hp := r.pos
  have hl := r.len
  have hcp := r.cap
  simp only at hj hp hl
  have hlen : s.mem.length = B.length + (A.length + (j.length + 1)) := by rw [hj]; simp
  have hL : loadN s.mem s.pos = .ok B := by
    rw [hj, hp, loadN_take B _ _ (Nat.le_refl _), List.take_length]
  obtain ⟨Y, hY, hYl⟩ : ∃ Y : Mem Char, (A.map some ++ some NUL :: j).take w.length = Y ∧
      Y.length = w.length := ⟨_, rfl, by simp; omega⟩
  have hm : Mem.memmove s.mem (s.pos + w.length) s.pos (s.len - s.pos + 1) =
      .ok (B.map some ++ (Y ++ (A.map some ++ some NUL ::
        (A.map some ++ some NUL :: j).drop (w.length + (A.length + 1))))) := by
    rw [hj, hp, show s.len - B.length + 1 = A.length + 1 by omega,
      move_eq B A j (B.length + w.length) (by omega), take_add _ _ _ _ (by simp), Nat.add_assoc,
      drop_add _ _ _ _ (by simp), hY]
    simp
  have hm2 : Mem.memcpy (B.map some ++ (Y ++ (A.map some ++ some NUL ::
        (A.map some ++ some NUL :: j).drop (w.length + (A.length + 1))))) s.pos (dup w) 0 w.length =
      .ok (B.map some ++ (w.map some ++ (A.map some ++ some NUL ::
        (A.map some ++ some NUL :: j).drop (w.length + (A.length + 1))))) := by
    unfold Mem.memcpy
    split
    · rename_i h0
      have hw : w = [] := List.eq_nil_of_length_eq_zero h0
      subst hw
      have : Y = [] := List.eq_nil_of_length_eq_zero (by simpa using hYl)
      subst this
      simp
    · rw [if_pos ⟨by simp [hp, hYl], by simp [dup]⟩]
      rw [hp, List.take_left' (by simp), drop_add _ _ _ _ (by simp), List.drop_left' hYl]
      simp [dup]
  unfold tab
  simp only [hL, Res.ok_bind, hc, if_pos hr, hm, hm2]
  refine ⟨_, rfl, ⟨⟨_, by simp only [List.map_append, List.append_assoc]; rfl⟩, ?_, ?_, ?_, ?_,
    r.idx, r.idxle, r.saved, r.draft, r.search, r.look⟩, rfl⟩
  · simp [hcp, hlen]; omega
  · simp; omega
  · simp; omega
  · have h1 := r.nul
    have h2 := complete_nul hc
    simp only [List.mem_append, not_or] at h1 ⊢
    exact ⟨⟨h1.1, h2⟩, h1.2⟩

end Verif.LineEdit
