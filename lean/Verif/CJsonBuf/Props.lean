import Verif.CJsonBuf.Model
import Verif.CJson.Props

/-!
# Printing stays in its buffer and returns the text

C173.  `print_ok`: for every value that the library can hold, printing ends without undefined behaviour, and returns a block that holds exactly the text of
the value (unit `CJson`) and its terminator, unless the text with its reserve does not fit into `INT_MAX` bytes, when it returns `NULL`.
-/

namespace Verif.CJsonBuf

open Verif.CJson

/-- Between two steps: everything up to `offset` is the text so far. -/
structure Pre (p : P) (acc : List Nat) : Prop where
  size : p.buf.length = p.len
  max : p.len ≤ intMax
  off : acc.length = p.off
  room : p.off < p.len
  text : acc.map some <+: p.buf

/-- After a value: the text so far, the value and a terminator; `offset` is somewhere in the value. -/
structure Post (p : P) (acc t : List Nat) : Prop where
  size : p.buf.length = p.len
  max : p.len ≤ intMax
  lo : acc.length ≤ p.off
  hi : p.off ≤ acc.length + t.length
  slack : acc.length + t.length + 2 ≤ p.len
  nz : 0 ∉ t
  text : (acc ++ t ++ [0]).map some <+: p.buf

/-- A step that fails only if something does not fit. -/
def Ok (r : Res (Option P)) (Q : P → Prop) (fits : Prop) : Prop :=
  (r = .ok none ∧ ¬ fits) ∨ ∃ p, r = .ok (some p) ∧ Q p

theorem Ok.thn {r : Res (Option P)} {g : P → Res (Option P)} {Q Q' : P → Prop} {f f' : Prop} (h : Ok r Q f)
    (hg : ∀ p, Q p → Ok (g p) Q' f') (hf : f' → f) : Ok (thn r g) Q' f' := by
  rcases h with ⟨rfl, h⟩ | ⟨p, rfl, h⟩
  · exact .inl ⟨rfl, fun hh => h (hf hh)⟩
  · exact hg p h

theorem Ok.mono {r : Res (Option P)} {Q Q' : P → Prop} {f f' : Prop} (h : Ok r Q f) (hQ : ∀ p, Q p → Q' p) (hf : f' → f) : Ok r Q' f' := by
  rcases h with ⟨rfl, h⟩ | ⟨p, rfl, h⟩
  · exact .inl ⟨rfl, fun hh => h (hf hh)⟩
  · exact .inr ⟨p, rfl, hQ p h⟩

theorem realloc_prefix {m : Mem Nat} {xs : Mem Nat} {n : Nat} (h : xs <+: m) (hn : xs.length ≤ n) : xs <+: Mem.realloc m n := by
  obtain ⟨r, rfl⟩ := h
  unfold Mem.realloc
  rw [List.take_append, List.take_of_length_le hn, List.append_assoc]
  exact ⟨_, rfl⟩

theorem realloc_length (m : Mem Nat) (n : Nat) : (Mem.realloc m n).length = n := by
  unfold Mem.realloc
  simp only [List.length_append, List.length_take, List.length_replicate]
  omega

/-- `ensure` makes room and keeps the text, and fails exactly if the size would be more than `INT_MAX`. -/
theorem ensure_ok {p : P} {acc : List Nat} (h : Pre p acc) (n : Nat) :
    (ensure p n = none ∧ ¬ p.off + n + 1 ≤ intMax) ∨
    ∃ q, ensure p n = some q ∧ Pre q acc ∧ q.off = p.off ∧ q.depth = p.depth ∧ q.fmt = p.fmt ∧ p.off + n + 1 ≤ q.len := by
  obtain ⟨h1, h2, h3, h4, h5⟩ := h
  have hm : intMax = 2147483647 := rfl
  unfold ensure
  rw [if_neg (by omega)]
  by_cases hn : n > intMax
  · rw [if_pos hn]
    exact .inl ⟨rfl, by omega⟩
  rw [if_neg hn]
  by_cases hl : n + (p.off + 1) ≤ p.len
  · simp only [if_pos hl]
    exact .inr ⟨p, rfl, ⟨h1, h2, h3, h4, h5⟩, rfl, rfl, rfl, by omega⟩
  simp only [if_neg hl]
  by_cases hb : n + (p.off + 1) > intMax / 2
  · rw [if_pos hb]
    by_cases hc : n + (p.off + 1) ≤ intMax
    · rw [if_pos hc]
      refine .inr ⟨_, rfl, ⟨realloc_length _ _, Nat.le_refl _, h3, ?_, realloc_prefix h5 ?_⟩, rfl, rfl, rfl, ?_⟩
      · show p.off < intMax; omega
      · rw [List.length_map]; omega
      · show p.off + n + 1 ≤ intMax; omega
    · rw [if_neg hc]
      exact .inl ⟨rfl, by omega⟩
  · rw [if_neg hb]
    refine .inr ⟨_, rfl, ⟨realloc_length _ _, ?_, h3, ?_, realloc_prefix h5 ?_⟩, rfl, rfl, rfl, ?_⟩
    · show (n + (p.off + 1)) * 2 ≤ intMax; omega
    · show p.off < (n + (p.off + 1)) * 2; omega
    · rw [List.length_map]; omega
    · show p.off + n + 1 ≤ (n + (p.off + 1)) * 2; omega

/-- Writing behind a text that is there. -/
theorem wr_ok : ∀ (xs : List Nat) (m : Mem Nat) (acc : List Nat), acc.map some <+: m → acc.length + xs.length ≤ m.length →
    ∃ m', wr m acc.length xs = .ok m' ∧ m'.length = m.length ∧ (acc ++ xs).map some <+: m' := by
  intro xs
  induction xs with
  | nil => intro m acc h _; exact ⟨m, rfl, rfl, by simpa using h⟩
  | cons x xs ih =>
      intro m acc h hl
      simp only [List.length_cons] at hl
      obtain ⟨r, rfl⟩ := h
      simp only [List.length_append, List.length_map] at hl
      cases r with
      | nil => simp only [List.length_nil] at hl; omega
      | cons y r =>
          have hs : Mem.store (acc.map some ++ y :: r) acc.length x = .ok ((acc ++ [x]).map some ++ r) := by
            unfold Mem.store
            rw [if_pos (by simp)]
            congr 1
            rw [List.set_append_right _ _ (by simp)]
            simp
          simp only [wr, hs, Res.bind]
          obtain ⟨m', e1, e2, e3⟩ := ih ((acc ++ [x]).map some ++ r) (acc ++ [x]) ⟨r, rfl⟩
            (by simp only [List.length_append, List.length_map, List.length_cons, List.length_nil] at *; omega)
          refine ⟨m', ?_, ?_, ?_⟩
          · simpa using e1
          · rw [e2]; simp
          · simpa using e3

theorem pre_of {p : P} {acc xs : List Nat} {m : Mem Nat} {k : Nat} (hm : m.length = p.buf.length) (hp : Pre p acc) (hx : (acc ++ xs).map some <+: m)
    (hk : k ≤ xs.length) (hr : p.off + k < p.len) : Pre { p with buf := m, off := p.off + k } (acc ++ xs.take k) := by
  refine ⟨hm.trans hp.size, hp.max, ?_, hr, ?_⟩
  · have := hp.off
    simp only [List.length_append, List.length_take]
    omega
  · refine List.IsPrefix.trans ?_ hx
    have : acc ++ xs = acc ++ xs.take k ++ xs.drop k := by rw [List.append_assoc, List.take_append_drop]
    rw [this]
    exact ⟨(xs.drop k).map some, by simp⟩

/-- A step that moves `offset` behind what it wrote (a terminator may follow). -/
theorem put_pre {p : P} {acc : List Nat} (h : Pre p acc) {n : Nat} {xs : List Nat} {k : Nat} (hk : k ≤ xs.length) (hxs : xs.length ≤ n + 1) (hkn : k ≤ n) :
    Ok (put p n xs k) (fun q => Pre q (acc ++ xs.take k) ∧ q.depth = p.depth ∧ q.fmt = p.fmt) (acc.length + n + 1 ≤ intMax) := by
  unfold put
  rcases ensure_ok h n with ⟨he, hn⟩ | ⟨q, he, hq, h1, h2, h3, h4⟩
  · rw [he]
    exact .inl ⟨rfl, by rw [h.off]; exact hn⟩
  · rw [he]
    obtain ⟨m', e1, e2, e3⟩ := wr_ok xs q.buf acc hq.text (by rw [hq.size, hq.off]; omega)
    rw [hq.off] at e1
    simp only [e1, Res.bind]
    exact .inr ⟨_, rfl, pre_of e2 hq e3 hk (by omega), h2, h3⟩

/-- A step that writes a value and a terminator. -/
theorem put_post {p : P} {acc : List Nat} (h : Pre p acc) {t : List Nat} (hz : 0 ∉ t) {k : Nat} (hk : k ≤ t.length) :
    Ok (put p (t.length + 1) (t ++ [0]) k) (fun q => Post q acc t ∧ q.depth = p.depth ∧ q.fmt = p.fmt) (acc.length + t.length + 2 ≤ intMax) := by
  unfold put
  rcases ensure_ok h (t.length + 1) with ⟨he, hn⟩ | ⟨q, he, hq, h1, h2, h3, h4⟩
  · rw [he]
    exact .inl ⟨rfl, by rw [h.off]; omega⟩
  · rw [he]
    obtain ⟨m', e1, e2, e3⟩ := wr_ok (t ++ [0]) q.buf acc hq.text
      (by rw [hq.size, hq.off, List.length_append]; simp only [List.length_singleton]; omega)
    rw [hq.off] at e1
    simp only [e1, Res.bind]
    have ho := hq.off
    refine .inr ⟨_, rfl, ⟨e2.trans hq.size, hq.max, ?_, ?_, ?_, hz, by simpa using e3⟩, h2, h3⟩
    · show acc.length ≤ q.off + k; omega
    · show q.off + k ≤ acc.length + t.length; omega
    · show acc.length + t.length + 2 ≤ q.len; omega

theorem strlen_ok : ∀ (t : List Nat) (r : Mem Nat), 0 ∉ t → strlen ((t ++ [0]).map some ++ r) = .ok t.length := by
  intro t
  induction t with
  | nil => intro r _; rfl
  | cons x t ih =>
      intro r h
      simp only [List.mem_cons, not_or] at h
      cases x with
      | zero => exact absurd rfl h.1
      | succ x =>
          simp only [List.cons_append, List.map_cons, strlen]
          rw [ih r h.2]
          rfl

/-- `update_offset` moves behind the value. -/
theorem update_ok {p : P} {acc t : List Nat} (h : Post p acc t) :
    ∃ q, updateOffset p = .ok (some q) ∧ Pre q (acc ++ t) ∧ q.depth = p.depth ∧ q.fmt = p.fmt ∧ acc.length + t.length + 2 ≤ q.len ∧
      (acc ++ t ++ [0]).map some <+: q.buf := by
  obtain ⟨h1, h2, h3, h4, h5, h6, r, h7⟩ := h
  obtain ⟨k, hk⟩ : ∃ k, p.off = acc.length + k := ⟨p.off - acc.length, by omega⟩
  have hd : p.buf.drop p.off = ((t.drop k) ++ [0]).map some ++ r := by
    rw [← h7, hk, List.drop_append_of_le_length (by simp; omega)]
    congr 1
    rw [← List.map_drop, List.append_assoc, ← List.drop_drop, List.drop_left, List.drop_append_of_le_length (by omega)]
  unfold updateOffset
  rw [hd, strlen_ok _ _ (fun hm => h6 (List.mem_of_mem_drop hm))]
  simp only [Res.bind]
  refine ⟨_, rfl, ⟨h1, h2, ?_, ?_, ?_⟩, rfl, rfl, h5, ⟨r, h7⟩⟩
  · show (acc ++ t).length = p.off + (t.drop k).length
    simp only [List.length_append, List.length_drop]; omega
  · show p.off + (t.drop k).length < p.len
    simp only [List.length_drop]; omega
  · show (acc ++ t).map some <+: p.buf
    exact List.IsPrefix.trans ⟨[some 0], by simp⟩ ⟨r, h7⟩

/-- Printing a part and moving behind it. -/
theorem Ok.update {r : Res (Option P)} {acc t : List Nat} {d : Nat} {f : Bool} {fits : Prop}
    (h : Ok r (fun q => Post q acc t ∧ q.depth = d ∧ q.fmt = f) fits) :
    Ok (CJsonBuf.thn r updateOffset) (fun q => (Pre q (acc ++ t) ∧ 0 ∉ t) ∧ q.depth = d ∧ q.fmt = f) fits := by
  refine h.thn (fun p ⟨hp, hd, hf⟩ => ?_) id
  obtain ⟨q, e, hq, e1, e2, _⟩ := update_ok hp
  exact .inr ⟨q, e, ⟨hq, hp.nz⟩, e1.trans hd, e2.trans hf⟩

theorem printByte_nz (c : Nat) (h : c ≠ 0) : 0 ∉ printByte c := by
  unfold printByte
  have hx : ∀ n, hexDigit n ≠ 0 := by
    intro n
    unfold hexDigit
    split <;> omega
  have h1 := hx (c / 16)
  have h2 := hx (c % 16)
  repeat' split
  all_goals simp only [List.mem_cons, List.not_mem_nil, or_false, not_or]
  all_goals omega

theorem printBytes_nz : ∀ s : List Nat, 0 ∉ s → 0 ∉ printBytes s
  | [], _ => by simp [printBytes]
  | c :: s, h => by
      simp only [List.mem_cons, not_or] at h
      simp only [printBytes, List.mem_append, not_or]
      exact ⟨printByte_nz c (fun e => h.1 e.symm), printBytes_nz s h.2⟩

theorem printBytes_plain : ∀ s : List Nat, escapes s = 0 → printBytes s = s
  | [], _ => rfl
  | c :: s, h => by
      simp only [escapes] at h
      have h1 : ¬ (c = 34 ∨ c = 92 ∨ c = 8 ∨ c = 12 ∨ c = 10 ∨ c = 13 ∨ c = 9) := by
        intro hc; rw [if_pos hc] at h; omega
      rw [if_neg h1] at h
      have h2 : ¬ c < 32 := by intro hc; rw [if_pos hc] at h; omega
      rw [if_neg h2] at h
      have h3 : printByte c = [c] := by
        unfold printByte
        rw [if_pos ⟨by omega, fun e => h1 (.inl e), fun e => h1 (.inr (.inl e))⟩]
      simp only [printBytes, h3, printBytes_plain s (by omega), List.singleton_append]

/-- The loop that escapes writes the bytes of the string; what it writes beyond them stays in the space asked for. -/
theorem escLoop_ok : ∀ (s : List Nat) (m : Mem Nat) (acc : List Nat), acc.map some <+: m → acc.length + (printBytes s).length + 1 ≤ m.length →
    ∃ m', escLoop m acc.length s = .ok m' ∧ m'.length = m.length ∧ (acc ++ printBytes s).map some <+: m' := by
  intro s
  induction s with
  | nil => intro m acc h _; exact ⟨m, rfl, rfl, by simpa [printBytes] using h⟩
  | cons c s ih =>
      intro m acc h hl
      simp only [printBytes, List.length_append] at hl
      obtain ⟨m1, e1, e2, e3⟩ := wr_ok (printByte c ++ if coded c then [0] else []) m acc h (by
        rw [List.length_append]
        split
        · simp only [List.length_singleton]; omega
        · simp only [List.length_nil]; omega)
      simp only [escLoop, e1, Res.bind]
      have e4 : (acc ++ printByte c).map some <+: m1 := by
        refine List.IsPrefix.trans ⟨(if coded c then [0] else []).map some, ?_⟩ e3
        simp
      obtain ⟨m2, f1, f2, f3⟩ := ih m1 (acc ++ printByte c) e4 (by rw [e2, List.length_append]; omega)
      rw [List.length_append] at f1
      exact ⟨m2, f1, f2.trans e2, by simpa [printBytes] using f3⟩

theorem putString_ok {p : P} {acc : List Nat} (h : Pre p acc) {s : List Nat} (hz : 0 ∉ s) :
    Ok (putString s p) (fun q => Post q acc (printString s) ∧ q.depth = p.depth ∧ q.fmt = p.fmt)
      (acc.length + (printString s).length + 2 ≤ intMax) := by
  have hlen : (printString s).length = s.length + escapes s + 2 := by
    simp only [printString, List.length_cons, List.length_append, printBytes_length, List.length_nil]
  have hnz : 0 ∉ printString s := by
    simp only [printString, List.mem_cons, List.mem_append, List.not_mem_nil, or_false, not_or]
    exact ⟨by omega, printBytes_nz s hz, by omega⟩
  unfold putString
  rcases ensure_ok h (s.length + escapes s + 3) with ⟨he, hn⟩ | ⟨q, he, hq, h1, h2, h3, h4⟩
  · rw [he]
    exact .inl ⟨rfl, by rw [h.off, hlen]; omega⟩
  rw [he]
  have ho := hq.off
  have hsz := hq.size
  have done : ∀ m' : Mem Nat, m'.length = q.buf.length → (acc ++ printString s ++ [0]).map some <+: m' →
      Post { q with buf := m' } acc (printString s) := by
    intro m' e2 e3
    refine ⟨e2.trans hq.size, hq.max, ?_, ?_, ?_, hnz, e3⟩
    · show acc.length ≤ q.off; omega
    · show q.off ≤ _; omega
    · show _ ≤ q.len; omega
  by_cases hes : escapes s = 0
  · simp only [if_pos hes]
    obtain ⟨m', e1, e2, e3⟩ := wr_ok (34 :: (s ++ [34, 0])) q.buf acc hq.text (by
      simp only [List.length_cons, List.length_append, List.length_nil]; omega)
    rw [hq.off] at e1
    simp only [e1, Res.bind]
    refine .inr ⟨_, rfl, done m' e2 ?_, h2, h3⟩
    have : acc ++ printString s ++ [0] = acc ++ 34 :: (s ++ [34, 0]) := by
      simp [printString, printBytes_plain s hes]
    rw [this]
    exact e3
  · simp only [if_neg hes]
    obtain ⟨m1, e1, e2, e3⟩ := wr_ok [34] q.buf acc hq.text (by simp only [List.length_singleton]; omega)
    rw [hq.off] at e1
    simp only [e1, Res.bind]
    obtain ⟨m2, f1, f2, f3⟩ := escLoop_ok s m1 (acc ++ [34]) e3 (by
      rw [e2, List.length_append, printBytes_length]; simp only [List.length_singleton]; omega)
    rw [List.length_append, List.length_singleton, hq.off] at f1
    simp only [f1]
    obtain ⟨m3, g1, g2, g3⟩ := wr_ok [34, 0] m2 (acc ++ [34] ++ printBytes s) f3 (by
      rw [f2, e2]; simp only [List.length_append, List.length_cons, List.length_nil, printBytes_length]; omega)
    have hpos : (acc ++ [34] ++ printBytes s).length = q.off + (s.length + escapes s) + 1 := by
      simp only [List.length_append, List.length_singleton, printBytes_length]; omega
    rw [hpos] at g1
    simp only [g1]
    refine .inr ⟨_, rfl, done m3 (g2.trans (f2.trans e2)) ?_, h2, h3⟩
    have : acc ++ printString s ++ [0] = acc ++ [34] ++ printBytes s ++ [34, 0] := by simp [printString]
    rw [this]
    exact g3

theorem decimal_length : ∀ (k n : Nat), n < 10 ^ (k + 1) → (decimal n).length ≤ k + 1 := by
  intro k
  induction k with
  | zero => intro n h; rw [decimal, dif_pos (by simpa using h)]; simp
  | succ k ih =>
      intro n h
      rw [decimal]
      split
      · simp
      · have := ih (n / 10) (by rw [Nat.pow_succ] at h; omega)
        simp only [List.length_append, List.length_singleton]; omega

theorem decimal_nz (n : Nat) : 0 ∉ decimal n := by
  intro h
  have := (decimal_spec n).1 0 h
  omega

theorem printInt_ok {i : Int} (h : -2147483648 ≤ i ∧ i ≤ 2147483647) : (printInt i).length ≤ 25 ∧ 0 ∉ printInt i := by
  cases i with
  | ofNat n =>
      have hn : n ≤ 2147483647 := by have := h.2; simp only [Int.ofNat_eq_natCast] at this; omega
      have := decimal_length 9 n (by omega)
      exact ⟨by simp only [printInt]; omega, decimal_nz n⟩
  | negSucc n =>
      have hn : n + 1 ≤ 2147483648 := by have := h.1; omega
      have := decimal_length 9 (n + 1) (by omega)
      refine ⟨by simp only [printInt, List.length_cons]; omega, ?_⟩
      simp only [printInt, List.mem_cons, not_or]
      exact ⟨by omega, decimal_nz _⟩

theorem putNumber_ok {p : P} {acc : List Nat} (h : Pre p acc) {t : List Nat} (hz : 0 ∉ t) (hl : t.length ≤ 25) :
    Ok (putNumber t p) (fun q => Post q acc t ∧ q.depth = p.depth ∧ q.fmt = p.fmt) (acc.length + t.length + 2 ≤ intMax) := by
  unfold putNumber
  rw [if_neg (by omega)]
  exact put_post h hz (Nat.le_refl _)

/-- The end of an array or object: the part before is in the text already. -/
theorem close_ok {p : P} {acc t u : List Nat} (h : Pre p (acc ++ t)) (ht : 0 ∉ t) (hu : 0 ∉ u) :
    Ok (put p (u.length + 1) (u ++ [0]) 0) (fun q => Post q acc (t ++ u) ∧ q.depth = p.depth ∧ q.fmt = p.fmt)
      (acc.length + (t ++ u).length + 2 ≤ intMax) := by
  refine (put_post h hu (Nat.zero_le _)).mono (fun q ⟨hq, hd, hf⟩ => ⟨⟨hq.size, hq.max, ?_, ?_, ?_, ?_, ?_⟩, hd, hf⟩) ?_
  · have := hq.lo; rw [List.length_append] at this; omega
  · have := hq.hi; simp only [List.length_append] at *; omega
  · have := hq.slack; simp only [List.length_append] at *; omega
  · simp only [List.mem_append, not_or]; exact ⟨ht, hu⟩
  · have := hq.text; simpa using this
  · intro hh; simp only [List.length_append] at *; omega

theorem higher_ok {r : Res (Option P)} {acc t : List Nat} {d : Nat} {f : Bool} {fits : Prop}
    (h : Ok r (fun q => Post q acc t ∧ q.depth = d + 1 ∧ q.fmt = f) fits) :
    Ok (thn r higher) (fun q => Post q acc t ∧ q.depth = d ∧ q.fmt = f) fits :=
  h.thn (fun _ ⟨hp, hd, hf⟩ => .inr ⟨_, rfl, ⟨hp.size, hp.max, hp.lo, hp.hi, hp.slack, hp.nz, hp.text⟩, by simp [hd], hf⟩) id

theorem deeper_ok {r : Res (Option P)} {acc : List Nat} {d : Nat} {f : Bool} {fits : Prop}
    (h : Ok r (fun q => Pre q acc ∧ q.depth = d ∧ q.fmt = f) fits) :
    Ok (thn r deeper) (fun q => Pre q acc ∧ q.depth = d + 1 ∧ q.fmt = f) fits :=
  h.thn (fun _ ⟨hp, hd, hf⟩ => .inr ⟨_, rfl, ⟨hp.size, hp.max, hp.off, hp.room, hp.text⟩, by simp [hd], hf⟩) id

theorem indent_ok {p : P} {acc : List Nat} (h : Pre p acc) :
    Ok (indent p) (fun q => Pre q (acc ++ if p.fmt then tabs p.depth else []) ∧ q.depth = p.depth ∧ q.fmt = p.fmt)
      (acc.length + (if p.fmt then tabs p.depth else []).length + 1 ≤ intMax) := by
  unfold indent
  cases hf : p.fmt
  · exact .inr ⟨p, by simp, by simpa using h, rfl, hf⟩
  · simp only [if_true]
    refine (put_pre h (n := p.depth) (xs := List.replicate p.depth 9) (k := p.depth) (by simp) (by simp) (Nat.le_refl _)).mono ?_ ?_
    · intro q ⟨hq, h1, h2⟩
      refine ⟨?_, h1, h2.trans hf⟩
      have : List.take p.depth (List.replicate p.depth 9) = tabs p.depth := by simp [tabs]
      rw [this] at hq
      exact hq
    · simp [tabs]

theorem colon_ok {p : P} {acc : List Nat} (h : Pre p acc) :
    Ok (colon p) (fun q => Pre q (acc ++ if p.fmt then [58, 9] else [58]) ∧ q.depth = p.depth ∧ q.fmt = p.fmt)
      (acc.length + (if p.fmt then [58, 9] else [58]).length + 1 ≤ intMax) := by
  unfold colon
  cases hf : p.fmt
  · simpa [hf] using put_pre h (n := 1) (xs := [58]) (k := 1) (by simp) (by simp) (by simp)
  · simpa [hf] using put_pre h (n := 2) (xs := [58, 9]) (k := 2) (by simp) (by simp) (by simp)

theorem comma_ok {p : P} {acc : List Nat} (h : Pre p acc) :
    Ok (comma p) (fun q => Pre q (acc ++ if p.fmt then [44, 32] else [44]) ∧ q.depth = p.depth ∧ q.fmt = p.fmt)
      (acc.length + (if p.fmt then [44, 32] else [44]).length + 2 ≤ intMax) := by
  unfold comma
  cases hf : p.fmt
  · simpa [hf] using put_pre h (n := 2) (xs := [44, 0]) (k := 1) (by simp) (by simp) (by simp)
  · simpa [hf] using put_pre h (n := 3) (xs := [44, 32, 0]) (k := 2) (by simp) (by simp) (by simp)

theorem memberEnd_ok {p : P} {acc : List Nat} (more : Bool) (h : Pre p acc) :
    Ok (memberEnd more p) (fun q => Pre q (acc ++ ((if more then [44] else []) ++ if p.fmt then [10] else [])) ∧ q.depth = p.depth ∧ q.fmt = p.fmt)
      (acc.length + ((if more then [44] else []) ++ if p.fmt then [10] else []).length + 2 ≤ intMax) := by
  unfold memberEnd
  cases more <;> cases hf : p.fmt
  · simpa [hf] using put_pre h (n := 1) (xs := [0]) (k := 0) (by simp) (by simp) (by simp)
  · simpa [hf] using put_pre h (n := 2) (xs := [10, 0]) (k := 1) (by simp) (by simp) (by simp)
  · simpa [hf] using put_pre h (n := 2) (xs := [44, 0]) (k := 1) (by simp) (by simp) (by simp)
  · simpa [hf] using put_pre h (n := 3) (xs := [44, 10, 0]) (k := 2) (by simp) (by simp) (by simp)

theorem tabs_nz (n : Nat) : 0 ∉ tabs n := by
  intro h
  have := List.eq_of_mem_replicate h
  omega

/-- A part of a member has been printed: text so far, and no zero in it. -/
def Mid (base t : List Nat) (d : Nat) (f : Bool) (q : P) : Prop := (Pre q (base ++ t) ∧ 0 ∉ t) ∧ q.depth = d ∧ q.fmt = f

/-- One member up to and including its end. -/
theorem member_ok {p : P} {acc k t : List Nat} {v : Item} {d : Nat} {f : Bool} (more : Bool) (h : Pre p acc) (hd : p.depth = d) (hf : p.fmt = f)
    (hk : 0 ∉ k)
    (hv : ∀ (q : P) (acc' : List Nat), Pre q acc' → q.depth = d → q.fmt = f →
      Ok (value v q) (fun q => Post q acc' t ∧ q.depth = d ∧ q.fmt = f) (acc'.length + t.length + 2 ≤ intMax)) {T : List Nat}
    (hT : T = (if f then tabs d else []) ++ printString k ++ (if f then [58, 9] else [58]) ++ t ++
      ((if more then [44] else []) ++ if f then [10] else [])) :
    Ok (thn (thn (thn (thn (thn (thn (indent p) (putString k)) updateOffset) colon) (value v)) updateOffset) (memberEnd more)) (Mid acc T d f)
      (acc.length + T.length + 2 ≤ intMax) := by
  have l0 : T.length = (if f then tabs d else []).length + (printString k).length + (if f then [58, 9] else [58]).length + t.length +
      ((if more then [44] else []) ++ if f then [10] else []).length := by
    rw [hT]; simp only [List.length_append]
  have z1 : 0 ∉ (if f then tabs d else []) := by
    split
    · exact tabs_nz d
    · simp
  have z3 : 0 ∉ (if f then [58, 9] else [58]) := by split <;> simp
  have z5 : 0 ∉ ((if more then [44] else []) ++ if f then [10] else []) := by cases more <;> cases f <;> simp
  have s1 : Ok (indent p) (Mid acc (if f then tabs d else []) d f) (acc.length + T.length + 2 ≤ intMax) := by
    refine (indent_ok h).mono (fun q ⟨h1, h2, h3⟩ => ⟨⟨?_, z1⟩, h2.trans hd, h3.trans hf⟩) ?_
    · rw [hd, hf] at h1; exact h1
    · intro hh; rw [hd, hf]; omega
  have s2 := s1.thn (g := putString k) (Q' := fun q => Post q (acc ++ if f then tabs d else []) (printString k) ∧ q.depth = d ∧ q.fmt = f)
    (f' := acc.length + T.length + 2 ≤ intMax)
    (fun q ⟨⟨h1, _⟩, h2, h3⟩ => (putString_ok h1 hk).mono (fun r ⟨g1, g2, g3⟩ => ⟨g1, g2.trans h2, g3.trans h3⟩)
      (by intro hh; rw [List.length_append]; omega)) id
  have s3 := s2.update
  have s4 := s3.thn (g := colon) (Q' := Mid acc ((if f then tabs d else []) ++ printString k ++ if f then [58, 9] else [58]) d f)
    (f' := acc.length + T.length + 2 ≤ intMax)
    (fun q ⟨⟨h1, hz⟩, h2, h3⟩ => (colon_ok h1).mono (fun r ⟨g1, g2, g3⟩ => by
        rw [h3] at g1
        refine ⟨⟨by simpa using g1, ?_⟩, g2.trans h2, g3.trans h3⟩
        simp only [List.mem_append, not_or]
        exact ⟨⟨z1, hz⟩, z3⟩)
      (by intro hh; rw [h3, List.length_append, List.length_append]; omega)) id
  have s5 := s4.thn (g := value v) (Q' := fun q => (Post q (acc ++ ((if f then tabs d else []) ++ printString k ++ if f then [58, 9] else [58])) t ∧
      q.depth = d ∧ q.fmt = f)) (f' := acc.length + T.length + 2 ≤ intMax)
    (fun q ⟨⟨h1, hz⟩, h2, h3⟩ => (hv q _ h1 h2 h3).mono (fun r hr => hr) (by intro hh; simp only [List.length_append] at *; omega)) id
  have s6 := s5.update
  refine s6.thn (fun q ⟨⟨h1, hz⟩, h2, h3⟩ => (memberEnd_ok more h1).mono (fun r ⟨g1, g2, g3⟩ => ?_) ?_) id
  · rw [h3] at g1
    refine ⟨⟨by rw [hT]; simpa using g1, ?_⟩, g2.trans h2, g3.trans h3⟩
    rw [hT]
    simp only [List.mem_append, not_or] at *
    refine ⟨⟨⟨⟨z1, ?_⟩, z3⟩, hz⟩, z5⟩
    simp only [printString, List.mem_cons, List.mem_append, List.not_mem_nil, or_false, not_or]
    exact ⟨by omega, printBytes_nz k hk, by omega⟩
  · intro hh; rw [h3]; simp only [List.length_append] at *; omega

mutual

theorem value_ok : ∀ (v : Item), Spec.Holds v → ∀ (p : P) (acc : List Nat) (d : Nat) (f : Bool), Pre p acc → p.depth = d → p.fmt = f →
    Ok (value v p) (fun q => Post q acc (printValue f d v) ∧ q.depth = d ∧ q.fmt = f) (acc.length + (printValue f d v).length + 2 ≤ intMax)
  | .null, _, p, acc, d, f, h, hd, hf => by
      subst hd hf
      rw [value, printValue]
      exact put_post h (t := [110, 117, 108, 108]) (by decide) (Nat.zero_le _)
  | .fls, _, p, acc, d, f, h, hd, hf => by
      subst hd hf
      rw [value, printValue]
      exact put_post h (t := [102, 97, 108, 115, 101]) (by decide) (Nat.zero_le _)
  | .tru, _, p, acc, d, f, h, hd, hf => by
      subst hd hf
      rw [value, printValue]
      exact put_post h (t := [116, 114, 117, 101]) (by decide) (Nat.zero_le _)
  | .num i, hi, p, acc, d, f, h, hd, hf => by
      subst hd hf
      rw [value, printValue]
      rw [Spec.Holds] at hi
      exact putNumber_ok h (printInt_ok hi).2 (printInt_ok hi).1
  | .real t, ht, p, acc, d, f, h, hd, hf => by
      subst hd hf
      rw [value, printValue]
      rw [Spec.Holds] at ht
      exact putNumber_ok h ht.1 (by omega)
  | .str s, hs, p, acc, d, f, h, hd, hf => by
      subst hd hf
      rw [value, printValue]
      rw [Spec.Holds] at hs
      exact putString_ok h hs
  | .arr l, hl, p, acc, d, f, h, hd, hf => by
      rw [value, printValue]
      rw [Spec.Holds] at hl
      have e : 91 :: (printElems f (d + 1) l ++ [93]) = ([91] ++ printElems f (d + 1) l) ++ [93] := by simp
      rw [e]
      have s1 := deeper_ok ((put_pre h (n := 1) (xs := [91]) (k := 1) (by simp) (by simp) (by simp)).mono
        (Q' := fun q => Pre q (acc ++ [91]) ∧ q.depth = d ∧ q.fmt = f)
        (f' := acc.length + (([91] ++ printElems f (d + 1) l) ++ [93]).length + 2 ≤ intMax)
        (fun q ⟨h1, h2, h3⟩ => ⟨h1, h2.trans hd, h3.trans hf⟩) (by simp only [List.length_append, List.length_singleton]; omega))
      have s2 := s1.thn (g := elems l) (Q' := Mid (acc ++ [91]) (printElems f (d + 1) l) (d + 1) f)
        (f' := acc.length + (([91] ++ printElems f (d + 1) l) ++ [93]).length + 2 ≤ intMax)
        (fun q ⟨h1, h2, h3⟩ => (elems_ok l hl q (acc ++ [91]) (d + 1) f h1 h2 h3).mono (fun _ x => x)
          (by simp only [List.length_append, List.length_singleton]; omega)) id
      refine higher_ok (s2.thn (fun q ⟨⟨h1, hz⟩, h2, h3⟩ => ?_) id)
      have h1' : Pre q (acc ++ ([91] ++ printElems f (d + 1) l)) := by rw [← List.append_assoc]; exact h1
      exact (close_ok h1' (u := [93]) (by simp only [List.mem_append, not_or]; exact ⟨by simp, hz⟩) (by simp)).mono
        (fun r ⟨g1, g2, g3⟩ => ⟨g1, g2.trans h2, g3.trans h3⟩) id
  | .obj m, hm, p, acc, d, f, h, hd, hf => by
      rw [value, printValue]
      rw [Spec.Holds] at hm
      have e : 123 :: ((if f then [10] else []) ++ printMembers f (d + 1) m ++ (if f then tabs d else []) ++ [125]) =
          ((if f then [123, 10] else [123]) ++ printMembers f (d + 1) m) ++ ((if f then tabs d else []) ++ [125]) := by
        cases f <;> simp
      rw [e]
      have s1 : Ok (put p ((if p.fmt then 2 else 1) + 1) (if p.fmt then [123, 10] else [123]) (if p.fmt then 2 else 1))
          (fun q => Pre q (acc ++ if f then [123, 10] else [123]) ∧ q.depth = d ∧ q.fmt = f)
          (acc.length + (((if f then [123, 10] else [123]) ++ printMembers f (d + 1) m) ++ ((if f then tabs d else []) ++ [125])).length + 2 ≤
            intMax) := by
        rw [hf]
        cases f
        · exact (put_pre h (n := 2) (xs := [123]) (k := 1) (by simp) (by simp) (by simp)).mono
            (fun q ⟨h1, h2, h3⟩ => ⟨h1, h2.trans hd, h3.trans hf⟩)
            (by simp only [List.length_append, List.length_cons, List.length_nil]; simp; omega)
        · exact (put_pre h (n := 3) (xs := [123, 10]) (k := 2) (by simp) (by simp) (by simp)).mono
            (fun q ⟨h1, h2, h3⟩ => ⟨h1, h2.trans hd, h3.trans hf⟩)
            (by simp only [List.length_append, List.length_cons, List.length_nil]; simp; omega)
      have s2 := (deeper_ok s1).thn (g := members m) (Q' := Mid (acc ++ if f then [123, 10] else [123]) (printMembers f (d + 1) m) (d + 1) f)
        (f' := acc.length + (((if f then [123, 10] else [123]) ++ printMembers f (d + 1) m) ++ ((if f then tabs d else []) ++ [125])).length + 2 ≤
          intMax)
        (fun q ⟨h1, h2, h3⟩ => (members_ok m hm q _ (d + 1) f h1 h2 h3).mono (fun _ x => x)
          (by simp only [List.length_append]; omega)) id
      refine higher_ok (s2.thn (fun q ⟨⟨h1, hz⟩, h2, h3⟩ => ?_) id)
      have h1' : Pre q (acc ++ ((if f then [123, 10] else [123]) ++ printMembers f (d + 1) m)) := by rw [← List.append_assoc]; exact h1
      have hu : 0 ∉ (if f then tabs d else []) ++ [125] := by
        simp only [List.mem_append, not_or]
        refine ⟨?_, by simp⟩
        split
        · exact tabs_nz d
        · simp
      have ht : 0 ∉ (if f then [123, 10] else [123]) ++ printMembers f (d + 1) m := by
        simp only [List.mem_append, not_or]
        refine ⟨?_, hz⟩
        cases f <;> simp
      have c := (close_ok h1' ht hu).mono (Q' := fun r => Post r acc (((if f then [123, 10] else [123]) ++ printMembers f (d + 1) m) ++
        ((if f then tabs d else []) ++ [125])) ∧ r.depth = d + 1 ∧ r.fmt = f) (fun r ⟨g1, g2, g3⟩ => ⟨g1, g2.trans h2, g3.trans h3⟩) id
      unfold objectEnd
      rw [h3, h2]
      cases f
      · exact c
      · have e2 : (tabs d ++ [125]).length + 1 = d + 1 + 1 := by simp [tabs]
        simp only [if_true] at c ⊢
        rw [e2] at c
        simpa [tabs] using c

theorem elems_ok : ∀ (l : Items), Spec.HoldsAll l → ∀ (p : P) (acc : List Nat) (d : Nat) (f : Bool), Pre p acc → p.depth = d → p.fmt = f →
    Ok (elems l p) (Mid acc (printElems f d l) d f) (acc.length + (printElems f d l).length + 2 ≤ intMax)
  | .nil, _, p, acc, d, f, h, hd, hf => by
      rw [elems, printElems]
      exact .inr ⟨p, rfl, ⟨by simpa using h, by simp⟩, hd, hf⟩
  | .cons v .nil, hl, p, acc, d, f, h, hd, hf => by
      rw [elems, printElems]
      rw [Spec.HoldsAll] at hl
      exact (value_ok v hl.1 p acc d f h hd hf).update
  | .cons v (.cons w l), hl, p, acc, d, f, h, hd, hf => by
      rw [elems, printElems]
      rw [Spec.HoldsAll] at hl
      have l0 : ∀ T, T = printValue f d v ++ (if f then [44, 32] else [44]) ++ printElems f d (.cons w l) →
          T.length = (printValue f d v).length + (if f then [44, 32] else [44]).length + (printElems f d (.cons w l)).length := by
        intro T hT; rw [hT]; simp only [List.length_append]
      generalize hT : printValue f d v ++ (if f then [44, 32] else [44]) ++ printElems f d (.cons w l) = T at *
      have l1 := l0 T rfl
      have zc : 0 ∉ (if f then [44, 32] else [44]) := by cases f <;> simp
      have s1 := ((value_ok v hl.1 p acc d f h hd hf).mono (fun _ x => x) (f' := acc.length + T.length + 2 ≤ intMax) (by omega)).update
      have s2 := s1.thn (g := comma) (Q' := Mid acc (printValue f d v ++ if f then [44, 32] else [44]) d f) (f' := acc.length + T.length + 2 ≤ intMax)
        (fun q ⟨⟨h1, hz⟩, h2, h3⟩ => (comma_ok h1).mono (fun r ⟨g1, g2, g3⟩ => by
            rw [h3] at g1
            refine ⟨⟨by simpa using g1, ?_⟩, g2.trans h2, g3.trans h3⟩
            simp only [List.mem_append, not_or]
            exact ⟨hz, zc⟩)
          (by rw [h3, List.length_append]; omega)) id
      refine s2.thn (fun q ⟨⟨h1, hz⟩, h2, h3⟩ => (elems_ok (.cons w l) hl.2 q _ d f h1 h2 h3).mono (fun r ⟨⟨g1, gz⟩, g2, g3⟩ => ?_) ?_) id
      · refine ⟨⟨by rw [← hT]; simpa using g1, ?_⟩, g2, g3⟩
        rw [← hT]
        simp only [List.mem_append, not_or] at *
        exact ⟨⟨hz.1, hz.2⟩, gz⟩
      · simp only [List.length_append] at *; omega

theorem members_ok : ∀ (m : Members), Spec.HoldsMems m → ∀ (p : P) (acc : List Nat) (d : Nat) (f : Bool), Pre p acc → p.depth = d → p.fmt = f →
    Ok (members m p) (Mid acc (printMembers f d m) d f) (acc.length + (printMembers f d m).length + 2 ≤ intMax)
  | .nil, _, p, acc, d, f, h, hd, hf => by
      rw [members, printMembers]
      exact .inr ⟨p, rfl, ⟨by simpa using h, by simp⟩, hd, hf⟩
  | .cons k v .nil, hm, p, acc, d, f, h, hd, hf => by
      rw [members, printMembers]
      rw [Spec.HoldsMems] at hm
      exact member_ok false h hd hf hm.1 (fun q acc' h1 h2 h3 => value_ok v hm.2.1 q acc' d f h1 h2 h3) (by simp)
  | .cons k v (.cons k' w m), hm, p, acc, d, f, h, hd, hf => by
      rw [members, printMembers]
      rw [Spec.HoldsMems] at hm
      have s1 := member_ok true h hd hf hm.1 (fun q acc' h1 h2 h3 => value_ok v hm.2.1 q acc' d f h1 h2 h3) rfl
      have e : (if true = true then [44] else []) ++ (if f then [10] else []) = if f then [44, 10] else [44] := by cases f <;> rfl
      rw [e] at s1
      generalize hA : (if f then tabs d else []) ++ printString k ++ (if f then [58, 9] else [58]) ++ printValue f d v ++
        (if f then [44, 10] else [44]) = A at *
      refine (s1.mono (fun _ x => x) (f' := acc.length + (A ++ printMembers f d (.cons k' w m)).length + 2 ≤ intMax)
        (by rw [List.length_append]; omega)).thn
        (fun q ⟨⟨h1, hz⟩, h2, h3⟩ => (members_ok (.cons k' w m) hm.2.2 q _ d f h1 h2 h3).mono (fun r ⟨⟨g1, gz⟩, g2, g3⟩ => ?_) ?_) id
      · refine ⟨⟨by simpa using g1, ?_⟩, g2, g3⟩
        simp only [List.mem_append, not_or]
        exact ⟨hz, gz⟩
      · simp only [List.length_append]; omega

end

/-- C173: printing never leaves its buffer or reads what was not written; it returns a block with exactly the text of the value and its terminator, or
`NULL` exactly if the text and two bytes more do not fit into `INT_MAX` bytes. -/
theorem print_ok (fmt : Bool) {v : Item} (h : Spec.Holds v) :
    print fmt v = .ok (if (CJson.print fmt v).length + 2 ≤ 2147483647 then some (Spec.cstring (CJson.print fmt v)) else none) := by
  have h0 : Pre ⟨Mem.malloc 256, 256, 0, 0, fmt⟩ [] :=
    ⟨List.length_replicate, by show 256 ≤ intMax; decide, rfl, by show 0 < 256; decide, by simp⟩
  have hm : intMax = 2147483647 := rfl
  have hv := value_ok v h _ [] 0 fmt h0 rfl rfl
  unfold print
  rcases hv with ⟨e, hn⟩ | ⟨p, e, hp, _, _⟩
  · rw [e]
    simp only [thn, Res.bind]
    rw [if_neg]
    intro hh
    apply hn
    simp only [List.length_nil, CJson.print] at *
    omega
  · rw [e]
    obtain ⟨q, e1, hq, _, _, hl, ht⟩ := update_ok hp
    simp only [thn, Res.bind, e1]
    have hlen : (CJson.print fmt v).length + 2 ≤ 2147483647 := by
      have := hq.max
      simp only [List.length_nil, CJson.print] at *
      omega
    rw [if_pos hlen]
    congr 2
    have ho := hq.off
    simp only [List.nil_append] at ho ht
    obtain ⟨r, hr⟩ := ht
    unfold Mem.realloc
    rw [← hr, List.take_append_of_le_length (by simp; omega), List.take_of_length_le (by simp; omega)]
    simp only [List.length_append, List.length_map, List.length_singleton, ← ho]
    rw [show (printValue fmt 0 v).length + 1 - ((printValue fmt 0 v).length + 1 + r.length) = 0 by omega]
    simp [Spec.cstring, CJson.print]

/-- A nested value with escapes and a text of more than 256 bytes: the buffer grows. -/
theorem sample : Spec.Holds (.obj (.cons [97, 10] (.arr (.cons (.str (List.replicate 300 1)) (.cons (.num (-5)) .nil))) .nil)) ∧
    (CJson.print false (.obj (.cons [97, 10] (.arr (.cons (.str (List.replicate 300 1)) (.cons (.num (-5)) .nil))) .nil))).length > 256 := by
  constructor
  · simp only [Spec.Holds, Spec.HoldsAll, Spec.HoldsMems, and_true]
    refine ⟨by decide, fun h => ?_, by omega⟩
    have := List.eq_of_mem_replicate h
    omega
  · simp only [CJson.print, printValue, printMembers, printElems, printString, List.length_cons, List.length_append, printBytes_length,
      List.length_replicate]
    omega

end Verif.CJsonBuf
