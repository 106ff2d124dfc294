import Verif.LineEdit.Keys

/-! # Properties of the line editor of the REPL -/

namespace Verif.LineEdit

open Spec

/-! ## C113: the line handed back is the line that was edited -/

theorem keys_rep {h : List (List Char)} (hh : NoNul h) {ks : List Key} {s : St} {e e' : Ed}
    (hk : ∀ k ∈ ks, k.ok) (hs : Keys h ks e e') (hb : NoBackInSearch h ks e) (r : Rep h s e)
    (rest : List Char) :
    ∃ s', loop h (ks.flatMap bytes ++ rest) s = loop h rest s' ∧ Rep h s' e' := by
  induction hs generalizing s with
  | nil => exact ⟨s, rfl, r⟩
  | @cons k ks e e1 e2 st _ ih =>
    cases hb with
    | cons hb1 hb2 =>
      obtain ⟨s1, h1, r1, -⟩ := key_rep hh (hk k (by simp)) hb1 st r (ks.flatMap bytes ++ rest)
      obtain ⟨s2, h2, r2⟩ := ih (fun k hk' => hk k (by simp [hk'])) (hb2 e1 st) r1
      refine ⟨s2, ?_, r2⟩
      rw [List.flatMap_cons, List.append_assoc, h1, h2]

theorem loop_enter {h : List (List Char)} {s : St} {e : Ed} (r : Rep h s e) {c : Char}
    (hc : c = '\r' ∨ c = '\n') (rest : List Char) :
    loop h (c :: rest) s = .ok (some e.line, rest) := by
  have hb : byte h c s = .ok (.enter s) := by
    rcases hc with rfl | rfl <;> simp [byte]
  have hE : c ≠ ESC := by rcases hc with rfl | rfl <;> decide
  rw [loop.eq_def]
  simp only [if_neg hE, hb, finish, r.cstr, Res.ok_bind]

/-- For every history, indentation and sequence of keys, the line that is handed back when Enter is
pressed is the line an editor would show; nothing outside the buffer is touched on the way. -/
theorem edit_line_partial {h : List (List Char)} (hh : NoNul h) (ind : Nat) {ks : List Key} {e : Ed}
    (hk : ∀ k ∈ ks, k.ok) (hs : Keys h ks (start h ind) e)
    (hb : NoBackInSearch h ks (start h ind)) {c : Char} (hc : c = '\r' ∨ c = '\n')
    (rest : List Char) :
    readline h ind (ks.flatMap bytes ++ c :: rest) = .ok (some e.line, rest) := by
  obtain ⟨s, hi, r, -⟩ := init_rep h ind
  obtain ⟨s', h1, r'⟩ := keys_rep hh hk hs hb r (c :: rest)
  unfold readline
  simp only [hi, Res.ok_bind, h1]
  exact loop_enter r' hc rest

/-- Every key has an effect the editor describes, except those a search takes no notice of. -/
theorem step_total (h : List (List Char)) (k : Key) (e : Ed) (ha : e.at_ ≤ h.length)
    (hl : e.look = none) : ∃ e', Step h k e e' ∧ e'.at_ ≤ h.length ∧
      (k ≠ .lookup → e'.look = none) := by
  obtain ⟨b, a, i, d, l⟩ := e
  simp only at ha hl
  subst hl
  cases k with
  | char c => exact ⟨_, .char rfl, ha, fun _ => rfl⟩
  | left =>
    rcases List.eq_nil_or_concat b with rfl | ⟨b', c, rfl⟩
    · exact ⟨_, .leftStop, ha, fun _ => rfl⟩
    · exact ⟨_, by rw [List.concat_eq_append]; exact .left, ha, fun _ => rfl⟩
  | right =>
    cases a with
    | nil => exact ⟨_, .rightStop, ha, fun _ => rfl⟩
    | cons c a => exact ⟨_, .right, ha, fun _ => rfl⟩
  | home => exact ⟨_, .home, ha, fun _ => rfl⟩
  | fin => exact ⟨_, .fin, ha, fun _ => rfl⟩
  | first => exact ⟨_, .first rfl, ha, fun _ => rfl⟩
  | last => exact ⟨_, .last rfl, ha, fun _ => rfl⟩
  | backspace =>
    rcases List.eq_nil_or_concat b with rfl | ⟨b', c, rfl⟩
    · exact ⟨_, .backStop, ha, fun _ => rfl⟩
    · exact ⟨_, by rw [List.concat_eq_append]; exact .backspace, ha, fun _ => rfl⟩
  | toStart => exact ⟨_, .toStart rfl, ha, fun _ => rfl⟩
  | toEnd => exact ⟨_, .toEnd rfl, ha, fun _ => rfl⟩
  | older =>
    cases i with
    | zero => exact ⟨_, .olderStop rfl, ha, fun _ => rfl⟩
    | succ i =>
      exact ⟨_, .older rfl (List.getElem?_eq_getElem (by omega)), by simp only; omega, fun _ => rfl⟩
  | newer =>
    by_cases h1 : i = h.length
    · exact ⟨_, .newerStop h1, ha, fun _ => rfl⟩
    · by_cases h2 : i + 1 = h.length
      · exact ⟨_, .newerDraft (by simp only; omega) h2, by simp only; omega, fun _ => rfl⟩
      · exact ⟨_, .newer (by simp only; omega) (List.getElem?_eq_getElem (by simp only; omega)),
          by simp only; omega, fun _ => rfl⟩
  | lookup =>
    obtain ⟨e', he⟩ := looked_total h [] h.length h.length ⟨b, a, i, d, none⟩ (Nat.le_refl _)
    refine ⟨e', .lookup rfl he, ?_, fun h0 => absurd rfl h0⟩
    cases he with
    | found hL _ => have := hL.1; simp only; omega
    | missed _ => exact ha
  | leave => exact ⟨_, .leave, ha, fun _ => rfl⟩

theorem keys_total (h : List (List Char)) (ks : List Key) (hn : Key.lookup ∉ ks) (e : Ed)
    (ha : e.at_ ≤ h.length) (hl : e.look = none) : ∃ e', Keys h ks e e' := by
  induction ks generalizing e with
  | nil => exact ⟨e, .nil⟩
  | cons k ks ih =>
    simp only [List.mem_cons, not_or] at hn
    obtain ⟨e1, st, h1, h2⟩ := step_total h k e ha hl
    obtain ⟨e2, h3⟩ := ih hn.2 e1 h1 (h2 (fun e => hn.1 e.symm))
    exact ⟨e2, .cons st h3⟩

/-- Keys other than a search do not start one. -/
theorem step_look {h : List (List Char)} {k : Key} {e e' : Ed} (st : Step h k e e')
    (hn : k ≠ .lookup) (hl : e.look = none) : e'.look = none := by
  cases st <;> first | exact hl | rfl | (simp_all; done)

theorem noBack_of_no_lookup (h : List (List Char)) (ks : List Key) (hn : Key.lookup ∉ ks) (e : Ed)
    (hl : e.look = none) : NoBackInSearch h ks e := by
  induction ks generalizing e with
  | nil => exact .nil
  | cons k ks ih =>
    simp only [List.mem_cons, not_or] at hn
    exact .cons (fun _ => hl) fun e' st => ih hn.2 e' (step_look st (fun e => hn.1 e.symm) hl)

/-- Without a search there is no condition: every sequence of keys gives the line of the editor. -/
theorem edit_line_nosearch {h : List (List Char)} (hh : NoNul h) (ind : Nat) (ks : List Key)
    (hk : ∀ k ∈ ks, k.ok) (hn : Key.lookup ∉ ks) (rest : List Char) :
    ∃ e, Keys h ks (start h ind) e ∧
      readline h ind (ks.flatMap bytes ++ '\r' :: rest) = .ok (some e.line, rest) := by
  obtain ⟨e, he⟩ := keys_total h ks hn (start h ind) (Nat.le_refl _) rfl
  exact ⟨e, he, edit_line_partial hh ind hk he (noBack_of_no_lookup h ks hn _ rfl) (Or.inl rfl) rest⟩

/-- Ctrl-H is Backspace, and Ctrl-L changes nothing. -/
theorem other_keys (h : List (List Char)) (s : St) (r : List Char) :
    loop h ('\x08' :: r) s = loop h ('\x7f' :: r) s ∧
    (s.search = false → loop h ('\x0c' :: r) s = loop h r s) :=
  ⟨by rw [loop.eq_def, loop.eq_def h ('\x7f' :: r)]; rfl,
    fun hs => loop_go (by decide) (by simp [byte, hs])⟩

/-- The hypotheses can be met: `ab`, left, `x`, Enter. -/
example : ∃ e, Keys [] [.char 'a', .char 'b', .left, .char 'x'] (start [] 0) e ∧
    e.line = ['a', 'x', 'b'] :=
  ⟨⟨['a', 'x'], ['b'], 0, none, none⟩,
    .cons (.char rfl) (.cons (.char rfl) (.cons (.left (l := ['a'])) (.cons (.char rfl) .nil))), rfl⟩

/-- What is typed is what is handed back. -/
theorem typed_line (h : List (List Char)) (hh : NoNul h) (t : List Char)
    (ht : ∀ c ∈ t, 32 ≤ c.toNat ∧ c.toNat ≠ 127) (rest : List Char) :
    readline h 0 (t ++ '\r' :: rest) = .ok (some t, rest) := by
  have hs : ∀ (t b : List Char), Keys h (t.map Key.char) ⟨b, [], h.length, none, none⟩
      ⟨b ++ t, [], h.length, none, none⟩ := by
    intro t
    induction t with
    | nil => intro b; rw [List.append_nil]; exact .nil
    | cons c t ih =>
      intro b
      have h1 := ih (b ++ [c])
      rw [List.append_assoc] at h1
      exact .cons (.char rfl) h1
  have h1 := edit_line_partial hh 0 (ks := t.map Key.char) (c := '\r') (rest := rest)
    (by intro k hk; obtain ⟨c, hc, rfl⟩ := List.mem_map.1 hk; exact ht c hc) (hs t [])
    (noBack_of_no_lookup h _ (by intro hm; obtain ⟨c, _, hc⟩ := List.mem_map.1 hm; simp at hc) _ rfl)
    (Or.inl rfl)
  have h2 : (t.map Key.char).flatMap bytes = t := by
    clear ht hs h1
    induction t with
    | nil => rfl
    | cons c t ih => simp [bytes, ih]
  rw [h2] at h1
  simpa [Ed.line] using h1

/-! ## C114: the buffer is never overrun, whatever the terminal sends -/

/-- Outcomes that can be gone on from. -/
def Fine (h : List (List Char)) (s : St) : Act → Prop
  | .go s' => ∃ e', Rep h s' e'
  | .enter s' => s' = s
  | .ret o => ∀ t, o = some t → NUL ∉ t

theorem search_fine {h : List (List Char)} (hh : NoNul h) {s : St} {e : Ed} {p m}
    (r : Rep h s { e with look := some (p, m) }) (n : Nat) (hn : n ≤ h.length) :
    ∃ e', Rep h (search h n s) e' := by
  obtain ⟨e', he⟩ := looked_total h p n m e hn
  exact ⟨e', search_rep hh hn r he⟩

theorem back_fine {h : List (List Char)} {s : St} {e : Ed} (r : Rep h s e) :
    ∃ s', back s = .ok s' ∧ ∃ e', Rep h s' e' := by
  obtain ⟨b, a, i, d, l⟩ := e
  rcases List.eq_nil_or_concat b with rfl | ⟨b', c, rfl⟩
  · have hp := r.pos
    simp only [List.length_nil] at hp
    exact ⟨s, by unfold back; rw [if_neg (by omega)], _, r⟩
  · rw [List.concat_eq_append] at r
    obtain ⟨s', h1, h2, -⟩ := back_rep r
    exact ⟨s', h1, _, h2⟩

theorem tab_fine {h : List (List Char)} {s : St} {e : Ed} (r : Rep h s e) :
    ∃ s', tab s = .ok s' ∧ ∃ e', Rep h s' e' := by
  obtain ⟨b, a, i, d, l⟩ := e
  cases hc : complete b with
  | none => exact ⟨s, tab_none r hc, _, r⟩
  | some w =>
    by_cases hr : s.len + w.length < s.cap - 1
    · obtain ⟨s', h1, h2, -⟩ := tab_room r hc hr
      exact ⟨s', h1, _, h2⟩
    · exact ⟨s, tab_full r hc (by omega), _, r⟩

theorem looking_of {h : List (List Char)} {s : St} {e : Ed} (r : Rep h s e)
    (hs : s.search = true) : ∃ p m, e.look = some (p, m) := by
  rw [r.search] at hs
  cases hl : e.look with
  | none => rw [hl] at hs; simp at hs
  | some q => exact ⟨q.1, q.2, rfl⟩

theorem ctrlR_fine {h : List (List Char)} (hh : NoNul h) {s : St} {e : Ed} (r : Rep h s e) :
    ∃ e', Rep h (ctrlR h s) e' := by
  unfold ctrlR
  by_cases hs : s.search = true
  · obtain ⟨p, m, hl⟩ := looking_of r hs
    simp only [if_pos hs]
    exact search_fine hh (e := e) (p := p) (m := m) (by rw [← hl]; exact r) _ (Nat.min_le_right _ _)
  · simp only [if_neg hs]
    exact search_fine hh (r.looking [] h.length (Nat.le_refl _)) _ (Nat.min_le_right _ _)

theorem searchByte_fine {h : List (List Char)} (hh : NoNul h) {s : St} {e : Ed} (r : Rep h s e)
    (hs : s.search = true) (c : Char) : ∃ e', Rep h (searchByte h c s) e' := by
  obtain ⟨p, m, hl⟩ := looking_of r hs
  obtain ⟨h1, h2, h3⟩ := r.look p m hl
  unfold searchByte
  split
  · exact ⟨{ e with look := none }, r.mem, r.cap, r.len, r.pos, r.nul, r.idx, r.idxle, r.saved,
      r.draft, rfl, fun p m he => by simp at he⟩
  · split
    · split
      · have r1 := r.looking (s.pat ++ [c]) m h3
        rw [show ({ s with search := true, pat := s.pat ++ [c], midx := m } : St) =
          { s with pat := s.pat ++ [c] } by rw [← hs, ← h2]] at r1
        exact search_fine hh r1 _ (Nat.le_refl _)
      · exact ⟨e, r⟩
    · exact ⟨e, r⟩

theorem byte_fine {h : List (List Char)} (hh : NoNul h) {s : St} {e : Ed} (r : Rep h s e)
    (c : Char) : ∃ a, byte h c s = .ok a ∧ Fine h s a := by
  unfold byte
  by_cases c1 : c = '\x7f' ∨ c = '\x08'
  · rw [if_pos c1]
    obtain ⟨s', h1, h2⟩ := back_fine r
    rw [h1]; exact ⟨.go s', rfl, h2⟩
  rw [if_neg c1]
  by_cases c2 : c = '\r' ∨ c = '\n'
  · rw [if_pos c2]; exact ⟨_, rfl, rfl⟩
  rw [if_neg c2]
  by_cases c3 : c = '\x03'
  · rw [if_pos c3]; exact ⟨_, rfl, fun t ht => by injection ht with ht; subst ht; simp⟩
  rw [if_neg c3]
  by_cases c4 : c = '\x04'
  · rw [if_pos c4]
    refine ⟨_, rfl, ?_⟩
    by_cases h0 : s.len = 0
    · rw [if_pos h0]; intro t ht; simp at ht
    · rw [if_neg h0]; exact ⟨e, r⟩
  rw [if_neg c4]
  by_cases c5 : c = '\t'
  · rw [if_pos c5]
    obtain ⟨s', h1, h2⟩ := tab_fine r
    rw [h1]; exact ⟨.go s', rfl, h2⟩
  rw [if_neg c5]
  by_cases c6 : c = '\x12'
  · rw [if_pos c6]; exact ⟨_, rfl, ctrlR_fine hh r⟩
  rw [if_neg c6]
  by_cases hs : s.search = true
  · rw [if_pos hs]
    exact ⟨_, rfl, searchByte_fine hh r hs c⟩
  rw [if_neg hs]
  obtain ⟨j, hj⟩ := r.mem
  have hl := r.len
  have hp := r.pos
  by_cases c7 : c = '\x01'
  · rw [if_pos c7]
    exact ⟨_, rfl, { e with before := [], after := e.before ++ e.after },
      ⟨j, by simp [hj]⟩, r.cap, by simp; omega, rfl, by simpa using r.nul, r.idx, r.idxle, r.saved,
      r.draft, r.search, r.look⟩
  rw [if_neg c7]
  by_cases c8 : c = '\x05'
  · rw [if_pos c8]
    exact ⟨_, rfl, { e with before := e.before ++ e.after, after := [] },
      ⟨j, by simp [hj]⟩, r.cap, by simp; omega, by simp; omega, by simpa using r.nul, r.idx,
      r.idxle, r.saved, r.draft, r.search, r.look⟩
  rw [if_neg c8]
  by_cases c9 : c = '\x0c'
  · rw [if_pos c9]; exact ⟨_, rfl, e, r⟩
  rw [if_neg c9]
  by_cases c10 : c = '\x15'
  · rw [if_pos c10]
    by_cases h0 : s.pos > 0
    · rw [if_pos h0]
      obtain ⟨m, hm, hr⟩ := toStart_rep r
      rw [hm]; exact ⟨.go _, rfl, _, hr⟩
    · rw [if_neg h0]; exact ⟨_, rfl, e, r⟩
  rw [if_neg c10]
  by_cases c11 : c = '\x0b'
  · rw [if_pos c11]
    obtain ⟨m, hm, hr⟩ := toEnd_rep r
    rw [hm]; exact ⟨.go _, rfl, _, hr⟩
  rw [if_neg c11]
  by_cases c12 : c = '\x0e'
  · rw [if_pos c12]
    exact ⟨_, rfl, fun t ht => by injection ht with ht; subst ht; decide⟩
  rw [if_neg c12]
  by_cases hc : (!iscntrl c) = true
  · rw [if_pos hc]
    have hn : c ≠ NUL := by intro e; subst e; simp [iscntrl, NUL] at hc
    obtain ⟨s', h1, h2, -⟩ := put_rep c hn r
    rw [h1]; exact ⟨.go _, rfl, _, h2⟩
  · rw [if_neg hc]; exact ⟨_, rfl, e, r⟩

theorem up_fine {h : List (List Char)} (hh : NoNul h) {s : St} {e : Ed} (r : Rep h s e) :
    ∃ s', up h s = .ok s' ∧ ∃ e', Rep h s' e' := by
  cases hi : e.at_ with
  | zero => exact ⟨s, by unfold up; rw [if_neg (by rw [r.idx]; omega)], e, r⟩
  | succ i =>
    have := r.idxle
    obtain ⟨s', h1, h2⟩ := up_rep hh r hi (List.getElem?_eq_getElem (show i < h.length by omega))
    exact ⟨s', h1, _, h2⟩

theorem down_fine {h : List (List Char)} (hh : NoNul h) {s : St} {e : Ed} (r : Rep h s e) :
    ∃ s', down h s = .ok s' ∧ ∃ e', Rep h s' e' := by
  have hle := r.idxle
  by_cases h1 : e.at_ = h.length
  · exact ⟨s, by unfold down; rw [if_neg (by rw [r.idx]; omega)], e, r⟩
  · by_cases h2 : e.at_ + 1 = h.length
    · obtain ⟨s', h3, h4⟩ := down_draft_rep r h2
      exact ⟨s', h3, _, h4⟩
    · obtain ⟨s', h3, h4⟩ := down_rep hh r (by omega)
        (List.getElem?_eq_getElem (show e.at_ + 1 < h.length by omega))
      exact ⟨s', h3, _, h4⟩

theorem escape_fine {h : List (List Char)} (hh : NoNul h) {s : St} {e : Ed} (r : Rep h s e)
    (a b : Char) : ∃ s', escape h a b s = .ok s' ∧ ∃ e', Rep h s' e' := by
  obtain ⟨j, hj⟩ := r.mem
  have hl := r.len
  have hp := r.pos
  unfold escape
  split
  · split
    · exact up_fine hh r
    split
    · exact down_fine hh r
    split
    · split
      · obtain ⟨b, a, i, d, l⟩ := e
        cases a with
        | nil => simp at hl hp; omega
        | cons c a =>
          refine ⟨_, rfl, ⟨b ++ [c], a, i, d, l⟩, ⟨j, by simp [hj]⟩, r.cap, ?_, ?_,
            by simpa using r.nul, r.idx, r.idxle, r.saved, r.draft, r.search, r.look⟩
          · simp at hl ⊢; omega
          · simp at hp ⊢; omega
      · exact ⟨s, rfl, e, r⟩
    split
    · split
      · obtain ⟨b, a, i, d, l⟩ := e
        rcases List.eq_nil_or_concat b with rfl | ⟨b', c, rfl⟩
        · simp at hp; omega
        · rw [List.concat_eq_append] at r hj hl hp
          refine ⟨_, rfl, ⟨b', c :: a, i, d, l⟩, ⟨j, by simp [hj]⟩, r.cap, ?_, ?_,
            by simpa using r.nul, r.idx, r.idxle, r.saved, r.draft, r.search, r.look⟩
          · simp at hl ⊢; omega
          · simp at hp ⊢; omega
      · exact ⟨s, rfl, e, r⟩
    split
    · exact ⟨_, rfl, { e with before := [], after := e.before ++ e.after },
        ⟨j, by simp [hj]⟩, r.cap, by simp; omega, rfl, by simpa using r.nul, r.idx, r.idxle,
        r.saved, r.draft, r.search, r.look⟩
    split
    · exact ⟨_, rfl, { e with before := e.before ++ e.after, after := [] },
        ⟨j, by simp [hj]⟩, r.cap, by simp; omega, by simp; omega, by simpa using r.nul, r.idx,
        r.idxle, r.saved, r.draft, r.search, r.look⟩
    · exact ⟨s, rfl, e, r⟩
  · exact ⟨s, rfl, e, r⟩

/-- The line handed back, if there is one, is a C string, and the bytes left over are the end of
what was sent. -/
def Good (input : List Char) (o : Option (List Char) × List Char) : Prop :=
  o.2 <:+ input ∧ ∀ t, o.1 = some t → NUL ∉ t

theorem loop_fine {h : List (List Char)} (hh : NoNul h) (n : Nat) :
    ∀ (input : List Char), input.length ≤ n → ∀ (s : St) (e : Ed), Rep h s e →
      ∃ o, loop h input s = .ok o ∧ Good input o := by
  have hfin : ∀ (s : St) (e : Ed) (rest input : List Char), Rep h s e → rest <:+ input →
      ∃ o, finish s rest = .ok o ∧ Good input o := by
    intro s e rest input r hr
    refine ⟨(some e.line, rest), by simp only [finish, r.cstr, Res.ok_bind], hr, ?_⟩
    intro t ht
    injection ht with ht
    subst ht
    exact r.nul
  induction n with
  | zero =>
    intro input hn s e r
    have : input = [] := List.eq_nil_of_length_eq_zero (by omega)
    subst this
    rw [loop.eq_def]
    exact hfin s e [] [] r (List.suffix_refl _)
  | succ n ih =>
    intro input hn s e r
    cases input with
    | nil => rw [loop.eq_def]; exact hfin s e [] [] r (List.suffix_refl _)
    | cons c rest =>
      rw [loop.eq_def]
      simp only
      split
      · match rest, hn with
        | [], _ => exact hfin s e [] _ r List.nil_suffix
        | [x], _ => exact hfin s e [] _ r List.nil_suffix
        | a :: b :: rest', hn =>
          obtain ⟨s', h1, e', r'⟩ := escape_fine hh r a b
          simp only [h1]
          obtain ⟨o, h2, h3, h4⟩ := ih rest' (by simp at hn; omega) s' e' r'
          exact ⟨o, h2, h3.trans ⟨[c, a, b], rfl⟩, h4⟩
      · obtain ⟨act, h1, h2⟩ := byte_fine hh r c
        simp only [h1]
        cases act with
        | go s' =>
          obtain ⟨e', r'⟩ := h2
          obtain ⟨o, h3, h4, h5⟩ := ih rest (by simp at hn; omega) s' e' r'
          exact ⟨o, h3, h4.trans (List.suffix_cons _ _), h5⟩
        | enter s' =>
          have : s' = s := h2
          subst this
          exact hfin s' e rest _ r (List.suffix_cons _ _)
        | ret o =>
          refine ⟨(o, rest), rfl, List.suffix_cons _ _, ?_⟩
          exact h2

/-- Whatever bytes the terminal sends, reading a line ends in a line or in nothing: no byte outside
the buffer is read or written. -/
theorem readline_safe {h : List (List Char)} (hh : NoNul h) (ind : Nat) (input : List Char) :
    ∃ o, readline h ind input = .ok o ∧ Good input o := by
  obtain ⟨s, hi, r, -⟩ := init_rep h ind
  unfold readline
  simp only [hi, Res.ok_bind]
  exact loop_fine hh input.length input (Nat.le_refl _) s _ r

/-! ## C115: the history -/

theorem keys_append {h : List (List Char)} {k1 k2 : List Key} {e1 e2 e3 : Ed}
    (h1 : Keys h k1 e1 e2) (h2 : Keys h k2 e2 e3) : Keys h (k1 ++ k2) e1 e3 := by
  induction h1 with
  | nil => exact h2
  | cons st _ ih => exact .cons st (ih h2)

theorem older_keys (h : List (List Char)) (e : Ed) (ha : e.at_ = h.length) (hl : e.look = none)
    (k : Nat) (hk : k ≤ h.length) :
    ∃ e', Keys h (List.replicate k Key.older) e e' ∧ e'.at_ = h.length - k ∧ e'.look = none ∧
      (k = 0 → e' = e) ∧
      (0 < k → e'.draft = some e.line ∧ h[h.length - k]? = some e'.line) := by
  induction k with
  | zero => exact ⟨e, .nil, by omega, hl, fun _ => rfl, fun h0 => by omega⟩
  | succ k ih =>
    obtain ⟨e1, k1, a1, l1, z1, d1⟩ := ih (by omega)
    have hi : h.length - (k + 1) < h.length := by omega
    have ht := List.getElem?_eq_getElem hi
    have st : Step h .older e1 _ := .older (i := h.length - (k + 1)) (by omega) ht
    have ks := keys_append k1 (.cons st .nil)
    rw [← List.replicate_succ'] at ks
    refine ⟨_, ks, rfl, l1,
      fun h0 => by omega, fun _ => ⟨?_, by simp only [Ed.line, List.append_nil]; exact ht⟩⟩
    by_cases h0 : k = 0
    · have he := z1 h0
      subst he
      simp [ha]
    · rw [if_neg (by omega)]
      exact (d1 (by omega)).1

theorem newer_keys (h : List (List Char)) (k : Nat) (e : Ed) (hk : 0 < k)
    (ha : e.at_ + k = h.length) :
    ∃ e', Keys h (List.replicate k Key.newer) e e' ∧ e'.at_ = h.length ∧
      e'.line = e.draft.getD [] := by
  induction k generalizing e with
  | zero => omega
  | succ k ih =>
    by_cases h0 : k = 0
    · subst h0
      exact ⟨_, .cons (.newerDraft (by omega) ha) .nil, ha, by simp [Ed.line]⟩
    · have ht := List.getElem?_eq_getElem (show e.at_ + 1 < h.length by omega)
      have st : Step h .newer e _ := .newer (by omega) ht
      obtain ⟨e', k', a', l'⟩ := ih { e with before := h[e.at_ + 1]'(by omega), after := [],
                                             at_ := e.at_ + 1 } (by omega) (by simp only; omega)
      exact ⟨e', .cons st k', a', l'⟩

/-- Keys that stay on the line being typed leave the editor at the end of the history. -/
theorem typing_at {h : List (List Char)} {ks : List Key} {e e' : Ed} (hs : Keys h ks e e')
    (hk : ∀ k ∈ ks, k.typing) (hl : e.look = none) :
    e'.at_ = e.at_ ∧ e'.look = none ∧ e'.draft = e.draft := by
  induction hs with
  | nil => exact ⟨rfl, hl, rfl⟩
  | @cons k ks e e1 e2 st _ ih =>
    have h1 : k.typing := hk k (by simp)
    have h2 : e1.at_ = e.at_ ∧ e1.look = none ∧ e1.draft = e.draft := by
      cases st <;> first | exact ⟨rfl, hl, rfl⟩ | exact ⟨rfl, rfl, rfl⟩ | exact h1.elim |
        (simp_all; done)
    obtain ⟨a, b, c⟩ := ih (fun k hk' => hk k (by simp [hk'])) h2.2.1
    exact ⟨a.trans h2.1, b, c.trans h2.2.2⟩

theorem typing_no_lookup {ks : List Key} (hk : ∀ k ∈ ks, k.typing) : Key.lookup ∉ ks :=
  fun h => hk _ h

/-- Up pressed `k` times shows the `k`-th entry from the end, whatever was typed before. -/
theorem older_shows {h : List (List Char)} (hh : NoNul h) (ind : Nat) (ks : List Key)
    (hok : ∀ k ∈ ks, k.ok) (hk : ∀ k ∈ ks, k.typing) (n : Nat) (h1 : 0 < n) (h2 : n ≤ h.length)
    {t : List Char} (ht : h[h.length - n]? = some t) (rest : List Char) :
    readline h ind ((ks ++ List.replicate n Key.older).flatMap bytes ++ '\r' :: rest) =
      .ok (some t, rest) := by
  obtain ⟨e, he⟩ := keys_total h ks (typing_no_lookup hk) (start h ind) (Nat.le_refl _) rfl
  obtain ⟨a, b, -⟩ := typing_at he hk rfl
  obtain ⟨e', ho, -, -, -, hd⟩ := older_keys h e a b n h2
  have hn : Key.lookup ∉ ks ++ List.replicate n Key.older := by
    simp only [List.mem_append, not_or]
    exact ⟨typing_no_lookup hk, fun hx => by have := List.eq_of_mem_replicate hx; simp at this⟩
  have := edit_line_partial hh ind (c := '\r') (rest := rest) (by
    intro k hk'
    rcases List.mem_append.1 hk' with h3 | h3
    · exact hok k h3
    · rw [List.eq_of_mem_replicate h3]; trivial) (keys_append he ho)
    (noBack_of_no_lookup h _ hn _ rfl) (Or.inl rfl)
  rw [this]
  have h3 := (hd h1).2
  rw [ht, Option.some.injEq] at h3
  rw [h3]

/-- Going up in the history and down again brings back the line that was being typed. -/
theorem history_keeps_line {h : List (List Char)} (hh : NoNul h) (ind : Nat) (ks : List Key)
    (hok : ∀ k ∈ ks, k.ok) (hk : ∀ k ∈ ks, k.typing) (n : Nat) (hn : n ≤ h.length)
    (rest : List Char) :
    ∃ t, readline h ind (ks.flatMap bytes ++ '\r' :: rest) = .ok (some t, rest) ∧
      readline h ind ((ks ++ List.replicate n Key.older ++ List.replicate n Key.newer).flatMap bytes
        ++ '\r' :: rest) = .ok (some t, rest) := by
  obtain ⟨e, he⟩ := keys_total h ks (typing_no_lookup hk) (start h ind) (Nat.le_refl _) rfl
  obtain ⟨a, b, -⟩ := typing_at he hk rfl
  refine ⟨e.line, edit_line_partial hh ind hok he
    (noBack_of_no_lookup h _ (typing_no_lookup hk) _ rfl) (Or.inl rfl) rest, ?_⟩
  obtain ⟨e', ho, ha', hl', hz, hd⟩ := older_keys h e a b n hn
  have hn' : Key.lookup ∉ ks ++ List.replicate n Key.older ++ List.replicate n Key.newer := by
    simp only [List.mem_append, not_or]
    exact ⟨⟨typing_no_lookup hk, fun hx => by have := List.eq_of_mem_replicate hx; simp at this⟩,
      fun hx => by have := List.eq_of_mem_replicate hx; simp at this⟩
  have hok' : ∀ k ∈ ks ++ List.replicate n Key.older ++ List.replicate n Key.newer, k.ok := by
    intro k hk'
    rcases List.mem_append.1 hk' with h3 | h3
    · rcases List.mem_append.1 h3 with h4 | h4
      · exact hok k h4
      · rw [List.eq_of_mem_replicate h4]; trivial
    · rw [List.eq_of_mem_replicate h3]; trivial
  by_cases h0 : n = 0
  · subst h0
    have := hz rfl
    subst this
    exact edit_line_partial hh ind hok' (keys_append (keys_append he ho) .nil)
      (noBack_of_no_lookup h _ hn' _ rfl) (Or.inl rfl) rest
  · obtain ⟨e'', hw, -, hline⟩ := newer_keys h n e' (by omega) (by omega)
    have := edit_line_partial hh ind hok' (keys_append (keys_append he ho) hw)
      (noBack_of_no_lookup h _ hn' _ rfl) (c := '\r') (Or.inl rfl) rest
    rw [this, hline, (hd (by omega)).1, Option.getD_some]

/-- The line of a running editor away from the end of the history never replaces the draft. -/
theorem draft_kept {h : List (List Char)} {k : Key} {e e' : Ed} (st : Step h k e e')
    (ha : e.at_ ≠ h.length) : e'.draft = e.draft := by
  cases st <;> first | rfl | (rename_i hL; cases hL <;> rfl; done) | (simp [ha]; done) | skip

/-- A search does lose it: whatever was typed, Ctrl-R followed by Down leaves an empty line. -/
theorem search_loses_line_violated (h : List (List Char)) (hh : NoNul h) (hne : h ≠ [])
    (ks : List Key) (hok : ∀ k ∈ ks, k.ok) (hk : ∀ k ∈ ks, k.typing) (rest : List Char) :
    readline h 0 ((ks ++ [Key.lookup, Key.newer]).flatMap bytes ++ '\r' :: rest) =
      .ok (some [], rest) := by
  obtain ⟨e, he⟩ := keys_total h ks (typing_no_lookup hk) (start h 0) (Nat.le_refl _) rfl
  obtain ⟨a, b, d⟩ := typing_at he hk rfl
  have hlen : 0 < h.length := List.length_pos_iff.2 hne
  obtain ⟨t, ht⟩ : ∃ t, h[h.length - 1]? = some t := ⟨_, List.getElem?_eq_getElem (by omega)⟩
  have hL : Latest h [] h.length (h.length - 1) :=
    ⟨by omega, ⟨t, ht, List.nil_infix⟩, fun j t h1 h2 => by omega⟩
  have s1 : Step h .lookup e _ := .lookup b (.found hL ht)
  have s2 : Step h .newer { e with before := t, after := [], at_ := h.length - 1,
                                   look := some ([], h.length - 1) } _ :=
    .newerDraft (by simp only; omega) (by simp only; omega)
  have hnb : ∀ (ks : List Key) (e0 : Ed), e0.look = none → (∀ k ∈ ks, k.typing) →
      NoBackInSearch h (ks ++ [Key.lookup, Key.newer]) e0 := by
    intro ks
    induction ks with
    | nil =>
      intro e0 hl _
      exact .cons (fun h => by simp at h) fun _ _ => .cons (fun h => by simp at h) fun _ _ => .nil
    | cons k ks ih =>
      intro e0 hl hty
      refine .cons (fun _ => hl) fun e' st => ih e' (step_look st ?_ hl)
        fun k hk' => hty k (by simp [hk'])
      intro hx
      have := hty k (by simp)
      rw [hx] at this
      exact this
  have := edit_line_partial hh 0 (c := '\r') (rest := rest) (by
    intro k hk'
    rcases List.mem_append.1 hk' with h3 | h3
    · exact hok k h3
    · simp only [List.mem_cons, List.not_mem_nil, or_false] at h3
      rcases h3 with rfl | rfl <;> trivial) (keys_append he (.cons s1 (.cons s2 .nil)))
    (hnb ks _ rfl hk) (Or.inl rfl)
  rw [this]
  have d' : e.draft = none := d
  simp [Ed.line, d']

/-- It is not the line that was typed. -/
example : ∃ (ks : List Key) (e : Ed), (∀ k ∈ ks, k.ok) ∧ (∀ k ∈ ks, k.typing) ∧
    Keys [['a']] ks (start [['a']] 0) e ∧ e.line ≠ [] :=
  ⟨[.char 'x'], ⟨['x'], [], 1, none, none⟩, by simp [Key.ok], by simp [Key.typing],
    .cons (.char rfl) .nil, by simp [Ed.line]⟩

/-- During a search the backspace key takes characters off the line that was found, not off the text
that is looked for: after `f`, `x` and backspace the editor would show `foo`. -/
theorem search_backspace_violated :
    ∃ (h : List (List Char)) (ks : List Key) (e : Ed), NoNul h ∧ (∀ k ∈ ks, k.ok) ∧
      Keys h ks (start h 0) e ∧
      readline h 0 (ks.flatMap bytes ++ ['\r']) = .ok (some ['f', 'o'], []) ∧
      e.line = ['f', 'o', 'o'] := by
  refine ⟨[['f', 'o', 'o']], [.lookup, .char 'f', .char 'x', .backspace],
    ⟨['f', 'o', 'o'], [], 0, none, some (['f'], 0)⟩, by simp [NoNul]; decide, ?_, ?_, by decide +kernel,
    rfl⟩
  · intro k hk
    simp only [List.mem_cons, List.not_mem_nil, or_false] at hk
    rcases hk with rfl | rfl | rfl | rfl <;> simp [Key.ok] <;> decide
  · have L : ∀ p : List Char, p <:+: ['f', 'o', 'o'] → Latest [['f', 'o', 'o']] p 1 0 := fun p hp =>
      ⟨by omega, ⟨_, rfl, hp⟩, fun j t h1 h2 => by omega⟩
    refine .cons (.lookup rfl (.found (L [] List.nil_infix) rfl))
      (.cons (.lookChar rfl (by decide) (.found (L ['f'] ⟨[], ['o', 'o'], rfl⟩) rfl))
      (.cons (.lookChar rfl (by decide) (.missed ?_))
      (.cons (.backLook (p := ['f']) (c := 'x') rfl (.found (L ['f'] ⟨[], ['o', 'o'], rfl⟩) rfl)) .nil)))
    intro i hi
    have h0 : i = 0 := by have := hi.1; simp at this; omega
    subst h0
    obtain ⟨t, ht, hp⟩ := hi.2.1
    injection ht with ht
    subst ht
    exact absurd ((strstr_iff _ _).2 hp) (by decide +kernel)

/-! ## C116: Tab completes the word before the cursor -/

theorem wordChar_iff (c : Char) : wordChar c = true ↔ (c.isAlphanum ∨ c ∈ ['_', ':', '!']) := by
  simp [wordChar, or_assoc]

theorem wordBack_append (p u : List Char) (hp : ∀ c ∈ p, wordChar c = true)
    (hu : ∀ c, u.head? = some c → wordChar c = false) : wordBack (p ++ u) = p := by
  induction p with
  | nil =>
    cases u with
    | nil => rfl
    | cons c u => simp [wordBack, hu c rfl]
  | cons c p ih =>
    simp [wordBack, hp c (by simp), ih (fun d hd => hp d (by simp [hd]))]

theorem wordBack_split (t : List Char) : ∃ u, t = wordBack t ++ u ∧
    (∀ c ∈ wordBack t, wordChar c = true) ∧ (∀ c, u.head? = some c → wordChar c = false) := by
  induction t with
  | nil => exact ⟨[], rfl, by simp [wordBack], by simp⟩
  | cons c t ih =>
    by_cases hc : wordChar c = true
    · obtain ⟨u, h1, h2, h3⟩ := ih
      refine ⟨u, by simp only [wordBack, if_pos hc, List.cons_append]; rw [← h1], ?_, h3⟩
      simp only [wordBack, if_pos hc]
      intro d hd
      rcases List.mem_cons.1 hd with rfl | hd
      · exact hc
      · exact h2 d hd
    · refine ⟨c :: t, by simp [wordBack, hc], by simp [wordBack, hc], ?_⟩
      intro d hd
      simp at hd
      subst hd
      simpa using hc

theorem vocabulary_nodup : vocabulary.Nodup := by decide +kernel

theorem commands_colon : ∀ v ∈ commands.map String.toList, v.head? = some ':' := by decide +kernel

theorem filter_single {l : List (List Char)} {P : List Char → Bool} {v : List Char}
    (hn : l.Nodup) : l.filter P = [v] ↔ (v ∈ l ∧ P v = true ∧ ∀ x ∈ l, P x = true → x = v) := by
  constructor
  · intro h
    have hv : v ∈ l.filter P := by rw [h]; simp
    refine ⟨(List.mem_filter.1 hv).1, (List.mem_filter.1 hv).2, fun x hx hP => ?_⟩
    have : x ∈ l.filter P := List.mem_filter.2 ⟨hx, hP⟩
    rw [h] at this
    simpa using this
  · rintro ⟨h1, h2, h3⟩
    have hn' := hn.filter P
    have hall : ∀ x ∈ l.filter P, x = v := fun x hx =>
      h3 x (List.mem_filter.1 hx).1 (List.mem_filter.1 hx).2
    have hv : v ∈ l.filter P := List.mem_filter.2 ⟨h1, h2⟩
    match hl : l.filter P with
    | [] => rw [hl] at hv; simp at hv
    | [x] => rw [hl] at hall; rw [hall x (by simp)]
    | x :: y :: r =>
      rw [hl] at hall hn'
      have := hall x (by simp)
      have := hall y (by simp)
      simp_all

/-- `repl_complete` finds a completion exactly when there is one. -/
theorem complete_iff (b w : List Char) : complete b = some w ↔ Completes b w := by
  obtain ⟨u, hb, hp, hu⟩ := wordBack_split b.reverse
  generalize hw : wordBack b.reverse = q at hb hp
  have hb' : b = u.reverse ++ q.reverse := by
    have := congrArg List.reverse hb
    simpa using this
  have hms : q ≠ [] → starting q.reverse keywords ++
      (if q.reverse.head? = some ':' then starting q.reverse commands else []) =
      vocabulary.filter (fun v => q.reverse.isPrefixOf v) := by
    intro hq
    unfold vocabulary
    rw [List.map_append, List.filter_append]
    congr 1
    split
    · rfl
    · rename_i hc
      symm
      rw [List.filter_eq_nil_iff]
      intro v hv hpre
      have h1 := commands_colon v hv
      rw [List.isPrefixOf_iff_prefix] at hpre
      obtain ⟨z, rfl⟩ := hpre
      have hq' : q.reverse ≠ [] := by simpa using hq
      cases hr : q.reverse with
      | nil => exact hq' hr
      | cons c r => rw [hr] at h1 hc; exact hc h1
  have key : complete b = some w ↔ (q ≠ [] ∧ q.length < 255 ∧ q.reverse ++ w ∈ vocabulary ∧
      ∀ v ∈ vocabulary, q.reverse <+: v → v = q.reverse ++ w) := by
    unfold complete
    simp only [hw, List.length_reverse]
    by_cases h0 : q.length = 0
    · have : q = [] := List.eq_nil_of_length_eq_zero h0
      simp [this]
    · have hq : q ≠ [] := fun e => h0 (by rw [e]; rfl)
      rw [if_neg h0]
      by_cases h1 : q.length ≥ 255
      · rw [if_pos h1]
        constructor
        · intro h; simp at h
        · intro h; have := h.2.1; omega
      · rw [if_neg h1, hms hq]
        constructor
        · intro h
          split at h
          · rename_i v hv
            injection h with h
            obtain ⟨h2, h3, h4⟩ := (filter_single vocabulary_nodup).1 hv
            rw [List.isPrefixOf_iff_prefix] at h3
            obtain ⟨z, rfl⟩ := h3
            have hz : z = w := by rw [← h]; simp
            subst hz
            exact ⟨hq, by omega, h2, fun x hx hpre =>
              h4 x hx (by rwa [List.isPrefixOf_iff_prefix])⟩
          · simp at h
        · rintro ⟨-, -, h2, h3⟩
          have hv := (filter_single (P := fun v => q.reverse.isPrefixOf v) vocabulary_nodup
            (v := q.reverse ++ w)).2
            ⟨h2, by rw [List.isPrefixOf_iff_prefix]; exact List.prefix_append _ _,
              fun x hx hP => h3 x hx (by rwa [List.isPrefixOf_iff_prefix] at hP)⟩
          rw [hv]
          simp
  rw [key]
  constructor
  · rintro ⟨h1, h2, h3, h4⟩
    refine ⟨u.reverse, q.reverse, hb', by simpa using h1, ?_, ?_, by simpa using h2, h3, h4⟩
    · intro c hc
      exact (wordChar_iff c).1 (hp c (by simpa using hc))
    · intro c hc hx
      have := hu c (by rw [List.getLast?_reverse] at hc; exact hc)
      rw [(wordChar_iff c).2 hx] at this
      simp at this
  · rintro ⟨u', p, rfl, h1, h2, h3, h4, h5, h6⟩
    have : wordBack (u' ++ p).reverse = p.reverse := by
      rw [List.reverse_append]
      refine wordBack_append _ _ (fun c hc => (wordChar_iff c).2 (h2 c (by simpa using hc))) ?_
      intro c hc
      rw [List.head?_reverse] at hc
      have := h3 c hc
      rw [← wordChar_iff] at this
      simpa using this
    have hq : q = p.reverse := by rw [← hw]; exact this
    subst hq
    simp only [List.reverse_reverse, List.length_reverse]
    exact ⟨by simpa using h1, h4, h5, h6⟩

theorem keys_rep_cap {h : List (List Char)} (hh : NoNul h) {ks : List Key} {s : St} {e e' : Ed}
    (hk : ∀ k ∈ ks, k.ok) (ht : ∀ k ∈ ks, k.typing) (hl : e.look = none) (hs : Keys h ks e e')
    (r : Rep h s e) (rest : List Char) :
    ∃ s', loop h (ks.flatMap bytes ++ rest) s = loop h rest s' ∧ Rep h s' e' ∧ s.cap ≤ s'.cap := by
  induction hs generalizing s with
  | nil => exact ⟨s, rfl, r, Nat.le_refl _⟩
  | @cons k ks e e1 e2 st _ ih =>
    have hty : k.typing := ht k (by simp)
    have hne : k ≠ .older ∧ k ≠ .newer ∧ k ≠ .lookup := by
      refine ⟨?_, ?_, ?_⟩ <;> (intro hx; subst hx; exact hty)
    obtain ⟨s1, h1, r1, c1⟩ := key_rep hh (hk k (by simp)) (fun _ => hl) st r
      (ks.flatMap bytes ++ rest)
    obtain ⟨s2, h2, r2, c2⟩ := ih (fun k hk' => hk k (by simp [hk']))
      (fun k hk' => ht k (by simp [hk'])) (step_look st hne.2.2 hl) r1
    refine ⟨s2, ?_, r2, Nat.le_trans (c1 hne.1 hne.2.1 hne.2.2 hl) c2⟩
    rw [List.flatMap_cons, List.append_assoc, h1, h2]

theorem loop_tab {h : List (List Char)} {s s' : St} (ht : tab s = .ok s') (rest : List Char) :
    loop h ('\t' :: rest) s = loop h rest s' :=
  loop_go (by decide) (by simp [byte, ht])

/-- On a line that was typed, Tab inserts the rest of the word at the cursor.  Partial: the line
must have been typed, and there must be room in the first block of 1024 bytes. -/
theorem tab_completes_partial {h : List (List Char)} (hh : NoNul h) (ind : Nat) {ks : List Key}
    {e : Ed} (hk : ∀ k ∈ ks, k.ok) (ht : ∀ k ∈ ks, k.typing) (hs : Keys h ks (start h ind) e)
    {w : List Char} (hw : Completes e.before w) (hr : e.line.length + w.length < 1023)
    (rest : List Char) :
    readline h ind (ks.flatMap bytes ++ '\t' :: '\r' :: rest) =
      .ok (some (e.before ++ w ++ e.after), rest) := by
  obtain ⟨s, hi, r, hc⟩ := init_rep h ind
  obtain ⟨s', h1, r', hc'⟩ := keys_rep_cap hh hk ht rfl hs r ('\t' :: '\r' :: rest)
  obtain ⟨b, a, i, d, l⟩ := e
  have hlen := r'.len
  simp only [Ed.line, List.length_append] at hr hlen
  obtain ⟨s2, h2, r2, -⟩ := tab_room r' ((complete_iff _ _).2 hw) (by omega)
  unfold readline
  simp only [hi, Res.ok_bind, h1, loop_tab h2]
  exact loop_enter r2 (Or.inl rfl) rest

/-- When there is nothing to complete, Tab changes nothing. -/
theorem tab_nothing {h : List (List Char)} (hh : NoNul h) (ind : Nat) {ks : List Key} {e : Ed}
    (hk : ∀ k ∈ ks, k.ok) (hs : Keys h ks (start h ind) e)
    (hb : NoBackInSearch h ks (start h ind)) (hw : ∀ w, ¬ Completes e.before w)
    (rest : List Char) :
    readline h ind (ks.flatMap bytes ++ '\t' :: '\r' :: rest) = .ok (some e.line, rest) := by
  obtain ⟨s, hi, r, -⟩ := init_rep h ind
  obtain ⟨s', h1, r'⟩ := keys_rep hh hk hs hb r ('\t' :: '\r' :: rest)
  have hn : complete e.before = none := by
    cases hc : complete e.before with
    | none => rfl
    | some w => exact absurd ((complete_iff _ _).1 hc) (hw w)
  unfold readline
  obtain ⟨b, a, i, d, l⟩ := e
  simp only [hi, Res.ok_bind, h1, loop_tab (tab_none r' hn)]
  exact loop_enter r' (Or.inl rfl) rest

/-- The hypotheses can be met: `ret` becomes `return`. -/
theorem ret_completes : Completes ['r', 'e', 't'] ['u', 'r', 'n'] :=
  (complete_iff _ _).1 (by decide +kernel)

example : readline [] 0 ("x = ret".toList ++ ['\t', '\r']) = .ok (some "x = return".toList, []) := by
  decide +kernel

/-- A line that was recalled from the history is never completed: the block it is in has no room. -/
theorem recalled_line_not_completed_violated (h : List (List Char)) (hh : NoNul h) (ind : Nat)
    (t : List Char) (hne : h.getLast? = some t) (rest : List Char) :
    readline h ind (bytes .older ++ '\t' :: '\r' :: rest) = .ok (some t, rest) := by
  obtain ⟨s, hi, r, -⟩ := init_rep h ind
  have hlen : 0 < h.length := by
    cases h with
    | nil => simp at hne
    | cons x y => simp
  have ht : h[h.length - 1]? = some t := by rw [← hne, List.getLast?_eq_getElem?]
  obtain ⟨s1, hu, r1⟩ := up_rep hh r (i := h.length - 1) (t := t)
    (by show h.length = _; omega) ht
  have hcap : s1.cap = t.length + 1 ∧ s1.len = t.length := by
    unfold up at hu
    rw [if_pos (by rw [r.idx]; show h.length > 0; omega)] at hu
    rw [if_pos (by rw [r.idx]; rfl), r.cstr] at hu
    have hix : s.idx = h.length := r.idx
    simp only [Res.ok_bind, hix, ht] at hu
    injection hu with hu
    subst hu
    exact ⟨rfl, rfl⟩
  have htab : tab s1 = .ok s1 := by
    cases hc : complete t with
    | none => exact tab_none r1 hc
    | some w => exact tab_full r1 hc (by omega)
  unfold readline
  simp only [hi, Res.ok_bind]
  rw [show bytes .older ++ '\t' :: '\r' :: rest = ESC :: '[' :: 'A' :: '\t' :: '\r' :: rest from rfl,
    loop_esc (show escape h '[' 'A' s = .ok s1 from hu), loop_tab htab]
  rw [loop_enter r1 (Or.inl rfl) rest]
  simp [Ed.line]

/-- There is a completion that is missed. -/
example : [['r', 'e', 't']].getLast? = some ['r', 'e', 't'] ∧
    ∃ w, w ≠ [] ∧ Completes ['r', 'e', 't'] w := ⟨rfl, _, by simp, ret_completes⟩

/-! ## C117: keys that are not known -/

/-- An escape that does not begin an arrow key swallows the two bytes after it: what is typed after
the Escape key is lost. -/
theorem escape_swallows_violated (h : List (List Char)) (ind : Nat) (a b : Char) (ha : a ≠ '[')
    (rest : List Char) : readline h ind (ESC :: a :: b :: rest) = readline h ind rest := by
  obtain ⟨s, hi, r, -⟩ := init_rep h ind
  unfold readline
  simp only [hi, Res.ok_bind]
  exact loop_esc (by unfold escape; rw [if_neg ha])

/-- The Delete key (`ESC [ 3 ~`) types a tilde, for every line and cursor. -/
theorem delete_types_tilde_violated {h : List (List Char)} (hh : NoNul h) (ind : Nat)
    {ks : List Key} {e : Ed} (hk : ∀ k ∈ ks, k.ok) (ht : ∀ k ∈ ks, k.typing)
    (hs : Keys h ks (start h ind) e) (rest : List Char) :
    readline h ind (ks.flatMap bytes ++ ESC :: '[' :: '3' :: '~' :: '\r' :: rest) =
      .ok (some (e.before ++ '~' :: e.after), rest) := by
  obtain ⟨s, hi, r, hc⟩ := init_rep h ind
  obtain ⟨s', h1, r', -⟩ := keys_rep_cap hh hk ht rfl hs r
    (ESC :: '[' :: '3' :: '~' :: '\r' :: rest)
  obtain ⟨-, hl, -⟩ := typing_at hs ht rfl
  obtain ⟨s2, h2, r2, -⟩ := key_rep hh (k := .char '~') (by simp only [Key.ok]; decide)
    (fun h => by simp at h) (.char hl) r' ('\r' :: rest)
  unfold readline
  simp only [hi, Res.ok_bind, h1]
  rw [loop_esc (s' := s') (by simp [escape])]
  rw [show '~' :: '\r' :: rest = bytes (.char '~') ++ '\r' :: rest from rfl, h2,
    loop_enter r2 (Or.inl rfl) rest]
  simp [Ed.line]

/-- At the end of the input an empty line is handed back, not the end: the caller cannot tell it
from Enter on an empty line. -/
theorem end_of_input_is_a_line (h : List (List Char)) (ind : Nat) :
    readline h ind [] = .ok (some (List.replicate (4 * ind) ' '), []) := by
  obtain ⟨s, hi, r, -⟩ := init_rep h ind
  unfold readline
  simp only [hi, Res.ok_bind]
  rw [loop.eq_def]
  simp only [finish, r.cstr, Res.ok_bind]
  simp [Ed.line, start]

/-- Ctrl-D on an empty line is the only way to say that there is no more: every other byte goes on
or hands back a line. -/
theorem no_line_only_ctrlD {h : List (List Char)} {s : St} {c : Char}
    (hb : byte h c s = .ok (.ret none)) : c = '\x04' ∧ s.len = 0 := by
  by_cases c4 : c = '\x04'
  · refine ⟨c4, ?_⟩
    subst c4
    by_cases h0 : s.len = 0
    · exact h0
    · simp [byte, h0] at hb
  · exfalso
    unfold byte at hb
    by_cases c1 : c = '\x7f' ∨ c = '\x08'
    · rw [if_pos c1] at hb; cases hx : back s <;> rw [hx] at hb <;> simp at hb
    rw [if_neg c1] at hb
    by_cases c2 : c = '\r' ∨ c = '\n'
    · rw [if_pos c2] at hb; simp at hb
    rw [if_neg c2] at hb
    by_cases c3 : c = '\x03'
    · rw [if_pos c3] at hb; simp at hb
    rw [if_neg c3, if_neg c4] at hb
    by_cases c5 : c = '\t'
    · rw [if_pos c5] at hb; cases hx : tab s <;> rw [hx] at hb <;> simp at hb
    rw [if_neg c5] at hb
    by_cases c6 : c = '\x12'
    · rw [if_pos c6] at hb; simp at hb
    rw [if_neg c6] at hb
    by_cases hs : s.search = true
    · rw [if_pos hs] at hb; simp at hb
    rw [if_neg hs] at hb
    by_cases c7 : c = '\x01'
    · rw [if_pos c7] at hb; simp at hb
    rw [if_neg c7] at hb
    by_cases c8 : c = '\x05'
    · rw [if_pos c8] at hb; simp at hb
    rw [if_neg c8] at hb
    by_cases c9 : c = '\x0c'
    · rw [if_pos c9] at hb; simp at hb
    rw [if_neg c9] at hb
    by_cases c10 : c = '\x15'
    · rw [if_pos c10] at hb
      by_cases h0 : s.pos > 0
      · rw [if_pos h0] at hb
        cases hx : Mem.memmove s.mem 0 s.pos (s.len - s.pos + 1) <;> rw [hx] at hb <;> simp at hb
      · rw [if_neg h0] at hb; simp at hb
    rw [if_neg c10] at hb
    by_cases c11 : c = '\x0b'
    · rw [if_pos c11] at hb
      cases hx : Mem.store s.mem s.pos NUL <;> rw [hx] at hb <;> simp at hb
    rw [if_neg c11] at hb
    by_cases c12 : c = '\x0e'
    · rw [if_pos c12] at hb; simp at hb
    rw [if_neg c12] at hb
    by_cases hc : (!iscntrl c) = true
    · rw [if_pos hc] at hb; cases hx : put c s <;> rw [hx] at hb <;> simp at hb
    · rw [if_neg hc] at hb; simp at hb

end Verif.LineEdit
