import Verif.Highlight.Props

/-!
# C156, C158: the line on the screen, the place of the cursor, the colours of words
-/

namespace Verif.Highlight
open Verif.Forth Verif.Highlight.Spec

/-! ## colours are not visible -/

theorem feed_append (t : Term) (a b : Str) : feed t (a ++ b) = feed (feed t a) b := List.foldl_append

theorem feed_cons (t : Term) (c : Char) (s : Str) : feed t (c :: s) = feed (byte t c) s := rfl

theorem feed_nil (t : Term) : feed t [] = t := rfl

theorem put_esc (t : Term) (c : Char) : (put t c).esc = t.esc := by
  unfold put; repeat' split
  all_goals rfl

/-- no control character is the escape or a carriage return -/
theorem typed_char {c : Char} (h : 32 ≤ c.toNat) : c ≠ '\r' ∧ c ≠ '\x1b' :=
  ⟨fun e => by subst e; exact absurd h (by decide), fun e => by subst e; exact absurd h (by decide)⟩

theorem byte_typed {t : Term} (ht : t.esc = none) {c : Char} (h : 32 ≤ c.toNat) : byte t c = put t c := by
  have := typed_char h
  unfold byte
  rw [ht]
  simp only [if_neg this.1, if_neg this.2]

theorem feed_esc : ∀ {s : Str} {t : Term}, t.esc = none → Typed s → (feed t s).esc = none
  | [], t, h, _ => h
  | c :: s, t, h, hs => by
      rw [feed_cons, byte_typed h (hs c (by simp)).1]
      exact feed_esc (by rw [put_esc, h]) fun d hd => hs d (by simp [hd])

theorem feed_params : ∀ (ps : Str) (t : Term) (p : Str), t.esc = some ('[' :: p) → (∀ c ∈ ps, c.toNat < 64) →
    feed t ps = { t with esc := some ('[' :: p ++ ps) }
  | [], t, p, h, _ => by rw [feed_nil, List.append_nil, ← h]
  | c :: ps, t, p, h, hp => by
      have hc : ¬ 64 ≤ c.toNat := by have := hp c (by simp); omega
      rw [feed_cons]
      have : byte t c = { t with esc := some ('[' :: (p ++ [c])) } := by
        unfold byte; rw [h]; simp only [if_neg hc, List.cons_append]
      rw [this, feed_params ps _ (p ++ [c]) rfl fun d hd => hp d (by simp [hd])]
      simp

/-- An escape sequence with its parameters. -/
theorem feed_csi {t : Term} (ht : t.esc = none) (ps : Str) (hp : ∀ c ∈ ps, c.toNat < 64) (f : Char) (hf : 64 ≤ f.toNat) :
    feed t ('\x1b' :: '[' :: ps ++ [f]) = final { t with esc := some ('[' :: ps) } ps f := by
  have h1 : byte t '\x1b' = { t with esc := some [] } := by unfold byte; rw [ht]; rfl
  have h2 : byte { t with esc := some [] } '[' = { t with esc := some ['['] } := by
    unfold byte; simp
  rw [List.cons_append, List.cons_append, feed_cons, h1, feed_cons, h2, feed_append,
    feed_params ps _ [] rfl hp, feed_cons, feed_nil]
  simp only [List.cons_append, List.nil_append]
  unfold byte
  simp only [if_pos hf]

theorem feed_sgr {t : Term} (ht : t.esc = none) (code : String) (hp : ∀ c ∈ code.toList, c.toNat < 64) :
    feed t (sgr code) = t := by
  unfold sgr
  rw [feed_csi ht _ hp 'm' (by decide)]
  unfold final
  rw [if_neg (by decide), if_neg (by decide), ← ht]

/-- Text in a colour does to the screen what the text does. -/
theorem feed_colour {t : Term} (ht : t.esc = none) (code : String) (hp : ∀ c ∈ code.toList, c.toNat < 64) {s : Str} (hs : Typed s) :
    feed t (colour code s) = feed t s := by
  unfold colour
  rw [feed_append, feed_append, feed_sgr ht code hp, feed_sgr (feed_esc ht hs) "0" (by decide)]

theorem quoted_prefix (q : Char) : ∀ s : Str, ∃ r, s = quoted q s ++ r := by
  intro s
  fun_induction quoted q s with
  | case1 => exact ⟨[], rfl⟩
  | case2 c => exact ⟨[], by simp⟩
  | case3 d s => exact ⟨d :: s, rfl⟩
  | case4 d s _ ih => obtain ⟨r, h⟩ := ih; exact ⟨r, by simp only [List.cons_append]; rw [← h]⟩
  | case5 c d s _ _ ih => obtain ⟨r, h⟩ := ih; exact ⟨r, by rw [List.cons_append, ← h]⟩

theorem take_prefix {s a b : Str} (h : s = a ++ b) : s.take a.length = a := by rw [h, List.take_left]

theorem take_takeWhile (p : Char → Bool) (s : Str) : s.take (s.takeWhile p).length = s.takeWhile p := by
  exact (take_prefix (List.takeWhile_append_dropWhile (p := p) (l := s)).symm)

theorem feed_word {t : Term} (ht : t.esc = none) {w : Str} (hw : Typed w) (after : Str) : feed t (word w after) = feed t w := by
  unfold word
  by_cases h : w.length < 256
  · rw [if_pos h, feed_append]
    have hc : ∀ code, wordColour w after = some code → ∀ c ∈ code.toList, c.toNat < 64 := by
      intro code h
      unfold wordColour at h
      repeat' split at h
      all_goals first
        | (cases h; decide)
        | exact absurd h (by simp)
    cases hcode : wordColour w after with
    | none => simp only; rw [feed_sgr (feed_esc ht hw) "0" (by decide)]
    | some code =>
        simp only
        rw [feed_append, feed_sgr ht code (hc code hcode), feed_sgr (feed_esc ht hw) "0" (by decide)]
  · rw [if_neg h]

/-- One round consumes at least one character and does to the screen what the consumed characters do. -/
theorem step_shows (mk : Option (Nat × Nat)) (i : Nat) (c : Char) (s : Str) (hs : Typed (c :: s)) :
    1 ≤ (step mk i c s).1 ∧ ∀ t : Term, t.esc = none → feed t (step mk i c s).2 = feed t ((c :: s).take (step mk i c s).1) := by
  have hc1 : Typed [c] := fun d hd => hs d (by rw [List.mem_singleton.1 hd]; simp)
  have htw : ∀ p : Char → Bool, Typed ((c :: s).takeWhile p) := fun p d hd => hs d ((List.takeWhile_prefix p).subset hd)
  have hlen : ∀ p : Char → Bool, p c = true → 1 ≤ ((c :: s).takeWhile p).length := by
    intro p h; rw [List.takeWhile_cons_of_pos h]; simp
  unfold step
  split
  · exact ⟨Nat.le_refl _, fun t ht => feed_colour ht _ (by decide) hc1⟩
  split
  · exact ⟨by simp, fun t ht => by rw [List.take_length]; exact feed_colour ht _ (by decide) hs⟩
  split
  · rename_i h
    refine ⟨hlen _ (by rw [h.1]; decide), fun t ht => ?_⟩
    rw [take_takeWhile]; exact feed_colour ht _ (by decide) (htw _)
  split
  · rename_i h
    refine ⟨hlen _ (by simp [h]), fun t ht => ?_⟩
    rw [take_takeWhile]; exact feed_colour ht _ (by decide) (htw _)
  split
  · obtain ⟨r, hr⟩ := quoted_prefix c s
    have e : (c :: s).take (c :: quoted c s).length = c :: quoted c s :=
      take_prefix (b := r) (by rw [List.cons_append, ← hr])
    refine ⟨by simp, fun t ht => ?_⟩
    rw [e]
    refine feed_colour ht _ (by decide) fun d hd => hs d ?_
    rw [hr]
    rcases List.mem_cons.1 hd with h | h
    · simp [h]
    · simp [h]
  split
  · exact ⟨Nat.le_refl _, fun t ht => feed_colour ht _ (by decide) hc1⟩
  split
  · exact ⟨Nat.le_refl _, fun t ht => feed_colour ht _ (by decide) hc1⟩
  split
  · exact ⟨Nat.le_refl _, fun t ht => feed_colour ht _ (by decide) hc1⟩
  split
  · rename_i h
    refine ⟨hlen _ (by unfold isWord; rcases Bool.or_eq_true_iff.1 h with h | h <;> simp [h]), fun t ht => ?_⟩
    rw [take_takeWhile]; exact feed_word ht (htw _) _
  · exact ⟨Nat.le_refl _, fun t ht => rfl⟩

theorem paint_shows (mk : Option (Nat × Nat)) : ∀ (k i : Nat) (s : Str), s.length ≤ k → Typed s → ∀ t : Term, t.esc = none →
    feed t (paint mk k i s) = feed t s
  | 0, i, s, h, _, t, _ => by
      have : s = [] := List.length_eq_zero_iff.1 (by omega)
      subst this; rw [paint]
  | k + 1, i, [], _, _, t, _ => by rw [paint]; simp
  | k + 1, i, c :: s, h, hs, t, ht => by
      rw [paint]
      obtain ⟨h1, h2⟩ := step_shows mk i c s hs
      rw [feed_append, h2 t ht]
      have htake : Typed ((c :: s).take (step mk i c s).1) := fun d hd => hs d (List.mem_of_mem_take hd)
      rw [paint_shows mk k _ _ (by rw [List.length_drop]; omega) (fun d hd => hs d (List.mem_of_mem_drop hd)) _
        (feed_esc ht htake), ← feed_append, List.take_append_drop]

/-- C156: what is printed with colours and marks does to the screen exactly what the typed text does, whatever the text, the
cursor and the screen. -/
theorem highlight_shows (buf : Str) (cur : Option Nat) (hb : Typed buf) (t : Term) (ht : t.esc = none) :
    feed t (highlight buf cur) = feed t buf := paint_shows _ _ _ _ (Nat.le_refl _) hb t ht

/-! ## the row -/

theorem flatten_modify_last (cells : List Str) (x : Char) (h : cells ≠ []) :
    (cells.modify (cells.length - 1) (· ++ [x])).flatten = cells.flatten ++ [x] ∧
      (cells.modify (cells.length - 1) (· ++ [x])).length = cells.length := by
  refine ⟨?_, List.length_modify ..⟩
  obtain ⟨a, b, rfl⟩ : ∃ a b, cells = a ++ [b] := ⟨_, _, (List.dropLast_concat_getLast h).symm⟩
  have : (a ++ [b]).modify ((a ++ [b]).length - 1) (· ++ [x]) = a ++ [b ++ [x]] := by
    simp only [List.length_append, List.length_cons, List.length_nil]
    induction a with
    | nil => rfl
    | cons y a ih =>
        simp only [List.length_cons, List.cons_append] at *
        rw [show a.length + 1 + (0 + 1) - 1 = (a.length + (0 + 1) - 1) + 1 by omega, List.modify_succ_cons, ih (by simp)]
  rw [this]; simp

/-- what the row looks like after text was printed at its end -/
def Row (t : Term) (shown : Str) : Prop := t.esc = none ∧ t.cells.flatten = shown ∧ t.cells.length = t.col

theorem row_text : ∀ (s : Str) (t : Term) (shown : Str), Row t shown → Typed s → t.col + columns s ≤ t.width →
    (t.col = 0 → s.head?.all (fun c => !continues c) = true) →
    Row (feed t s) (shown ++ s) ∧ (feed t s).col = t.col + columns s ∧ (feed t s).above = t.above ∧ (feed t s).width = t.width
  | [], t, shown, h, _, _, _ => by rw [feed_nil, List.append_nil]; exact ⟨h, by simp [columns], rfl, rfl⟩
  | c :: s, t, shown, h, hs, hw, h0 => by
      obtain ⟨he, hsh, hl⟩ := h
      rw [feed_cons, byte_typed he (hs c (by simp)).1]
      have hs' : Typed s := fun d hd => hs d (by simp [hd])
      by_cases hc : continues c = true
      · have hcol : t.col ≠ 0 := fun e => by have := h0 e; simp [hc] at this
        have hne : t.cells ≠ [] := fun e => by rw [e] at hl; exact hcol hl.symm
        have hcs : columns (c :: s) = columns s := by simp [columns, hc]
        have hp : put t c = { t with cells := t.cells.modify (t.col - 1) (· ++ [c]) } := by unfold put; rw [if_pos hc]
        have hm := flatten_modify_last t.cells c hne
        rw [hl] at hm
        have ih := row_text s (put t c) (shown ++ [c])
          ⟨by rw [put_esc, he], by rw [hp]; simp only; rw [hm.1, hsh], by rw [hp]; exact hm.2⟩ hs'
          (by rw [hp]; simp only; rw [hcs] at hw; exact hw) (by rw [hp]; exact fun e => absurd e hcol)
        rw [hcs]
        refine ⟨by simpa using ih.1, ?_, ?_, ?_⟩
        · rw [ih.2.1, hp]
        · rw [ih.2.2.1, hp]
        · rw [ih.2.2.2, hp]
      · have hcs : columns (c :: s) = columns s + 1 := by simp [columns, hc]
        have hlt : t.col < t.width := by omega
        have hp : put t c = { t with cells := t.cells.take t.col ++ [c] :: t.cells.drop (t.col + 1), col := t.col + 1 } := by
          unfold put; rw [if_neg hc, if_pos hlt]
        have hcells : t.cells.take t.col ++ [c] :: t.cells.drop (t.col + 1) = t.cells ++ [[c]] := by
          rw [List.take_of_length_le (by omega), List.drop_of_length_le (by omega)]
        rw [hcells] at hp
        have ih := row_text s (put t c) (shown ++ [c])
          ⟨by rw [put_esc, he], by rw [hp]; simp [hsh], by rw [hp]; simp [hl]⟩ hs'
          (by rw [hp]; simp only; omega) (by rw [hp]; simp)
        refine ⟨by simpa using ih.1, ?_, ?_, ?_⟩
        · rw [ih.2.1, hp, hcs]; simp only; omega
        · rw [ih.2.2.1, hp]
        · rw [ih.2.2.2, hp]

/-! ## redrawing -/

/-- Colours and text of a prompt: what of it can be seen. -/
inductive Prompt : Str → Str → Prop
  | nil : Prompt [] []
  | text {c p v} : 32 ≤ c.toNat → c.toNat ≠ 127 → Prompt p v → Prompt (c :: p) (c :: v)
  | sgr {code p v} : (∀ c ∈ code.toList, c.toNat < 64 ∧ 32 ≤ c.toNat) → Prompt p v → Prompt (sgr code ++ p) v

theorem Prompt.typed {p v : Str} (h : Prompt p v) : Typed v := by
  induction h with
  | nil => intro c hc; exact absurd hc (by simp)
  | text h1 h2 _ ih =>
      intro c hc
      rcases List.mem_cons.1 hc with h | h
      · rw [h]; exact ⟨h1, h2⟩
      · exact ih c h
  | sgr _ _ ih => exact ih

theorem Prompt.of_typed {s p v : Str} (hs : Typed s) (h : Prompt p v) : Prompt (s ++ p) (s ++ v) := by
  induction s with
  | nil => exact h
  | cons c s ih => exact .text (hs c (by simp)).1 (hs c (by simp)).2 (ih fun d hd => hs d (by simp [hd]))

theorem Prompt.feed {p v : Str} (h : Prompt p v) : ∀ t : Term, t.esc = none → feed t p = feed t v := by
  induction h with
  | nil => intro t _; rfl
  | text h1 _ _ ih =>
      intro t ht
      rw [feed_cons, feed_cons, ih _ (by rw [byte_typed ht h1, put_esc, ht])]
  | sgr hc _ ih => intro t ht; rw [feed_append, feed_sgr ht _ fun c h => (hc c h).1, ih t ht]

theorem visible_params : ∀ (ps rest : Str), (∀ c ∈ ps, c.toNat < 64 ∧ 32 ≤ c.toNat) →
    visible true (ps ++ rest) = visible true rest
  | [], _, _ => rfl
  | c :: ps, rest, h => by
      have hc := h c (by simp)
      have h1 : c ≠ '\x1b' := (typed_char hc.2).2
      have h2 : (c == 'm' || c == 'K' || isAlpha c) = false := by
        have hm : (c == 'm') = false := by
          simp only [beq_eq_false_iff_ne]; intro e; rw [e] at hc; exact absurd hc.1 (by decide)
        have hk : (c == 'K') = false := by
          simp only [beq_eq_false_iff_ne]; intro e; rw [e] at hc; exact absurd hc.1 (by decide)
        have ha : isAlpha c = false := by
          unfold isAlpha isLower isUpper
          have e1 : ¬ ('a' ≤ c) := fun h => by
            have := Char.le_def.1 h; have := UInt32.le_iff_toNat_le.1 this
            have e : ('a' : Char).val.toNat = 97 := rfl
            have : c.val.toNat = c.toNat := rfl
            omega
          have e2 : ¬ ('A' ≤ c) := fun h => by
            have := Char.le_def.1 h; have := UInt32.le_iff_toNat_le.1 this
            have e : ('A' : Char).val.toNat = 65 := rfl
            have : c.val.toNat = c.toNat := rfl
            omega
          simp [e1, e2]
        rw [hm, hk, ha]; rfl
      rw [List.cons_append, visible, if_neg h1, if_pos rfl, h2, Bool.not_false]
      exact visible_params ps rest fun d hd => h d (by simp [hd])

theorem Prompt.visible {p v : Str} (h : Prompt p v) : visible false p = v.length := by
  induction h with
  | nil => rfl
  | text h1 _ _ ih => rw [Highlight.visible, if_neg (typed_char h1).2, if_neg (by simp), ih, List.length_cons]
  | @sgr code p v hc _ ih =>
      have e : Highlight.sgr code ++ p = '\x1b' :: '[' :: (code.toList ++ ('m' :: p)) := by simp [Highlight.sgr]
      rw [e, Highlight.visible, if_pos rfl, Highlight.visible, if_neg (by decide), if_pos rfl]
      have : (!('[' == 'm' || '[' == 'K' || isAlpha '[')) = true := by decide
      rw [this, visible_params _ _ hc, Highlight.visible, if_neg (by decide), if_pos rfl]
      exact ih

/-- the three prompts of the program -/
theorem prompts_shown (base : Str) (hb : Typed base) :
    ∀ p ∈ prompts base, ∃ v, Prompt p v ∧ v ∈ [base ++ " >>> ".toList, ">>> ".toList, "... ".toList] := by
  have h0 : Prompt [' '] [' '] := .text (by decide) (by decide) .nil
  have hr : Prompt (sgr "0" ++ [' ']) [' '] := .sgr (by decide) h0
  intro p hp
  unfold prompts at hp
  simp only [List.mem_cons, List.not_mem_nil, or_false] at hp
  rcases hp with rfl | rfl | rfl
  · refine ⟨base ++ " >>> ".toList, ?_, by simp⟩
    have h1 : Prompt (" >>>".toList ++ (sgr "0" ++ [' '])) (" >>>".toList ++ [' ']) := Prompt.of_typed (by unfold Typed; decide) hr
    have := Prompt.sgr (code := "1;32") (by decide) (Prompt.of_typed hb h1)
    simpa using this
  · refine ⟨">>> ".toList, ?_, by simp⟩
    have h1 : Prompt (">>>".toList ++ (sgr "0" ++ [' '])) (">>>".toList ++ [' ']) := Prompt.of_typed (by unfold Typed; decide) hr
    have := Prompt.sgr (code := "1;32") (by decide) h1
    simpa using this
  · refine ⟨"... ".toList, ?_, by simp⟩
    have := Prompt.of_typed (s := "... ".toList) (by unfold Typed; decide) .nil
    simpa using this

theorem digitChar_spec : ∀ n : Fin 10, (digitChar n.val).toNat = 48 + n.val := by decide

theorem dec_spec (n : Nat) : (∀ c ∈ dec n, c.toNat < 64) ∧ param (dec n) = n := by
  fun_induction dec n with
  | case1 n h =>
      have := digitChar_spec ⟨n, h⟩
      simp only at this
      refine ⟨fun c hc => by rw [List.mem_singleton.1 hc, this]; omega, ?_⟩
      unfold param
      simp only [List.foldl_cons, List.foldl_nil, this]; omega
  | case2 n h ih =>
      have := digitChar_spec ⟨n % 10, by omega⟩
      simp only at this
      refine ⟨fun c hc => ?_, ?_⟩
      · rcases List.mem_append.1 hc with h | h
        · exact ih.1 c h
        · rw [List.mem_singleton.1 h, this]; omega
      · have h2 := ih.2
        unfold param at h2 ⊢
        rw [List.foldl_append, h2]
        simp only [List.foldl_cons, List.foldl_nil, this]; omega

/-- moving the cursor at the end of a redraw -/
theorem feed_move {t : Term} (ht : t.esc = none) (n : Nat) :
    feed t (if 0 < n then '\r' :: '\x1b' :: '[' :: dec n ++ ['C'] else ['\r']) =
      { t with col := if 0 < n then min n (t.width - 1) else 0 } := by
  have hr : byte t '\r' = { t with col := 0 } := by unfold byte; rw [ht]; rfl
  by_cases h : 0 < n
  · rw [if_pos h, if_pos h, List.cons_append, feed_cons, hr]
    rw [feed_csi (t := { t with col := 0 }) ht _ (dec_spec n).1 'C' (by decide)]
    unfold final
    rw [if_neg (by decide), if_pos rfl, (dec_spec n).2]
    simp only [Nat.zero_add, ht]
  · rw [if_neg h, if_neg h, feed_cons, hr, feed_nil]

theorem feed_clear {t : Term} (ht : t.esc = none) (s : Str) :
    feed t ('\r' :: '\x1b' :: '[' :: 'K' :: s) = feed { t with cells := [], col := 0 } s := by
  have hr : byte t '\r' = { t with col := 0 } := by unfold byte; rw [ht]; rfl
  have e : '\r' :: '\x1b' :: '[' :: 'K' :: s = '\r' :: (('\x1b' :: '[' :: [] ++ ['K']) ++ s) := rfl
  rw [e, feed_cons, hr, feed_append, feed_csi (t := { t with col := 0 }) ht [] (by simp) 'K' (by decide)]
  unfold final
  rw [if_pos rfl]
  simp only [List.take_zero, ht]

theorem redraw_feed {t : Term} (ht : t.esc = none) {prompt v buf : Str} (hp : Prompt prompt v) (hb : Typed buf) (pos : Nat) :
    feed t (redraw prompt buf pos) =
      { feed { t with cells := [], col := 0 } (v ++ buf) with
        col := if 0 < pos + v.length then min (pos + v.length) ((feed { t with cells := [], col := 0 } (v ++ buf)).width - 1) else 0 } := by
  unfold redraw
  have hv := hp.typed
  have he : (feed { t with cells := [], col := 0 } v).esc = none := feed_esc ht hv
  rw [List.cons_append, List.cons_append, List.cons_append, List.cons_append, List.cons_append, List.cons_append, List.cons_append,
    List.cons_append, feed_clear ht, feed_append, feed_append, hp.feed { t with cells := [], col := 0 } ht, highlight_shows buf _ hb _ he, ← feed_append { t with cells := [], col := 0 } v buf, hp.visible]
  have he2 : (feed { t with cells := [], col := 0 } (v ++ buf)).esc = none := by rw [feed_append]; exact feed_esc he hb
  rw [feed_move he2]

theorem columns_append (a b : Str) : columns (a ++ b) = columns a + columns b := by simp [columns]

theorem columns_ascii {s : Str} (h : Ascii s) : columns s = s.length := by
  unfold columns
  rw [List.filter_eq_self.2]
  intro c hc
  have := h c hc
  unfold continues
  have h1 : ¬ 128 ≤ c.toNat := by omega
  simp [h1]

theorem ascii_typed {s : Str} (h : Ascii s) : Typed s := fun c hc => ⟨(h c hc).1, by have := (h c hc).2; omega⟩

/-- C156: after every redraw the row shows the prompt and the line, if they fit into the row; other rows are as they were. -/
theorem line_shown {t : Term} (ht : t.esc = none) {prompt v buf : Str} (hp : Prompt prompt v) (hb : Typed buf) (pos : Nat)
    (hw : columns (v ++ buf) ≤ t.width) (h0 : (v ++ buf).head?.all (fun c => !continues c) = true) :
    (feed t (redraw prompt buf pos)).cells.flatten = v ++ buf ∧ (feed t (redraw prompt buf pos)).above = t.above ∧
      (feed t (redraw prompt buf pos)).esc = none := by
  have hty : Typed (v ++ buf) := fun c hc => by
    rcases List.mem_append.1 hc with h | h
    · exact hp.typed c h
    · exact hb c h
  have hrow := row_text (v ++ buf) { t with cells := [], col := 0 } [] ⟨ht, rfl, rfl⟩ hty (by simpa using hw) (fun _ => h0)
  rw [redraw_feed ht hp hb]
  exact ⟨hrow.1.2.1, hrow.2.2.1, hrow.1.1⟩

/-- C156: the cursor is shown where it is, if prompt and line are ASCII and the place is in the row. -/
theorem cursor_shown_partial {t : Term} (ht : t.esc = none) {prompt v buf : Str} (hp : Prompt prompt v) (hv : Ascii v)
    (hb : Ascii buf) (pos : Nat) (hpos : pos ≤ buf.length) (hw : v.length + buf.length ≤ t.width)
    (hc : v.length + pos < t.width) :
    (feed t (redraw prompt buf pos)).col = columns (v ++ buf.take pos) := by
  have hall : Ascii (v ++ buf) := fun c hc => by
    rcases List.mem_append.1 hc with h | h
    · exact hv c h
    · exact hb c h
  have hrow := row_text (v ++ buf) { t with cells := [], col := 0 } [] ⟨ht, rfl, rfl⟩ (ascii_typed hall)
    (by rw [columns_ascii hall]; simpa using hw) (fun _ => by
      cases h : (v ++ buf) with
      | nil => rfl
      | cons c s =>
          have := hall c (by rw [h]; simp)
          simp only [List.head?_cons, Option.all_some, continues]
          have h1 : ¬ 128 ≤ c.toNat := by omega
          simp [h1])
  have hcol : columns (v ++ buf.take pos) = v.length + pos := by
    rw [columns_append, columns_ascii hv, columns_ascii (fun c hc => hb c (List.mem_of_mem_take hc)), List.length_take]; omega
  rw [redraw_feed ht hp (ascii_typed hb), hcol]
  simp only [hrow.2.2.2]
  by_cases h : 0 < pos + v.length
  · rw [if_pos h]; omega
  · rw [if_neg h]; omega

/-- an instance: the second prompt, a terminal of 80 columns -/
example : (feed ⟨80, [], [], 7, none⟩ (redraw (sgr "1;32" ++ ">>>".toList ++ sgr "0" ++ [' ']) "let x = (1);".toList 4)).col = 8 := by
  have hp2 : Prompt (sgr "1;32" ++ ">>>".toList ++ sgr "0" ++ [' ']) ">>> ".toList := by
    have h1 : Prompt (">>>".toList ++ (sgr "0" ++ [' '])) (">>>".toList ++ [' ']) :=
      Prompt.of_typed (by unfold Typed; decide) (.sgr (by decide) (.text (by decide) (by decide) .nil))
    have := Prompt.sgr (code := "1;32") (by decide) h1
    simpa using this
  exact cursor_shown_partial (t := ⟨80, [], [], 7, none⟩) rfl hp2 (by unfold Ascii; decide) (by unfold Ascii; decide) 4 (by decide) (by decide)
    (by decide)

end Verif.Highlight
