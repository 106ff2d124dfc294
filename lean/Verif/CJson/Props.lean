import Verif.CJson.Val

/-!
# The JSON library of the language server: theorems

C106: strings.  C107: documents.  C108: looking a member up.
-/

namespace Verif.CJson

open Spec (Val Elems Mems Blank)

/-! ## C106: strings -/

/-- **C106.** Every JSON string is read as the bytes it stands for, whatever follows it: raw bytes as
they are, the escapes of a letter, `\u` escapes and surrogate pairs as the UTF-8 of their code
point. -/
theorem string_read {t s : List Nat} (h : Spec.Str t s) (hz : 0 ∉ s) (r : List Nat) :
    parseString (34 :: (t ++ 34 :: r)) = some (s, r) := by
  rw [parseString_complete h r, cstr_self hz]

/-- `"é"`, `"😀"` as an escaped pair, `"\n"`. -/
example : parseString [34, 92, 117, 48, 48, 101, 57, 34] = some ([0xC3, 0xA9], []) := by decide
example : parseString [34, 92, 117, 68, 56, 51, 68, 92, 117, 68, 69, 48, 48, 34, 44] =
    some ([0xF0, 0x9F, 0x98, 0x80], [44]) := by decide +kernel
example : Spec.Str [92, 117, 48, 48, 101, 57] [0xC3, 0xA9] :=
  .code [48, 48, 101, 57] 0xE9
    ⟨48, 48, 101, 57, 0, 0, 14, 9, rfl, .digit 0 (by omega), .digit 0 (by omega), .lower 4 (by omega),
      .digit 9 (by omega), rfl⟩ (by omega) .nil

/-- **C106 (partial).** Nothing but a string is accepted: the text up to the closing quote stands
for the value, or the value is what comes before a `\u` escape that is zero or is not an escape.
What is missing: the second case should be rejected, or keep the rest of the string
(`string_cut_violated`). -/
theorem string_accepts_partial {u r s : List Nat} (hu : 0 ∉ u)
    (h : parseString (u ++ [0]) = some (s, r)) :
    ∃ b r', u = 34 :: (b ++ 34 :: r') ∧ r = r' ++ [0] ∧ (Spec.Str b s ∨ Spec.Cut b s) := by
  obtain ⟨b, e, hb, r', hr, -⟩ := parseString_sound h ⟨u, rfl, hu⟩
  subst hr
  have : u ++ [0] = (34 :: (b ++ 34 :: r')) ++ [0] := by rw [e]; simp
  exact ⟨b, r', List.append_cancel_right this, rfl, hb⟩

example : parseString ([34, 97, 34, 44] ++ [0]) = some ([97], [44, 0]) := by decide

/-- No text with an escape that is none is a string. -/
theorem bad_escape_not_str {ds q s : List Nat} (hl : ds.length = 4) (h : ∀ u, ¬ Spec.Unit ds u) :
    ¬ Spec.Str (92 :: 117 :: (ds ++ q)) s := by
  intro hs
  have hnl : ∀ x, (117, x) ∉ Spec.letters := by
    intro x hx; exact (letter_ne hx).1 rfl
  generalize ht : 92 :: 117 :: (ds ++ q) = t at hs
  cases hs with
  | nil => cases ht
  | raw c hq hb hs => injection ht with h1 _; exact hb h1.symm
  | letter e x he hs =>
    injection ht with _ ht; injection ht with h1 _
    subst h1; exact hnl x he
  | code es u hu hr hs =>
    injection ht with _ ht; injection ht with _ ht
    obtain ⟨a, b, c, d, rfl⟩ := unit_shape hu
    have := (List.append_inj ht (by rw [hl]; rfl)).1
    subst this; exact h u hu
  | pair es fs hi lo hu hv hh hl2 hs =>
    injection ht with _ ht; injection ht with _ ht
    obtain ⟨a, b, c, d, rfl⟩ := unit_shape hu
    have := (List.append_inj ht (by rw [hl]; rfl)).1
    subst this; exact h _ hu

/-- **C106** fails: the value of `"a\u0000b"` is `a`, and `"a\uZZZZb"`, which is no JSON string, is
accepted as `a`. -/
theorem string_cut_violated :
    parseString [34, 97, 92, 117, 48, 48, 48, 48, 98, 34] = some ([97], []) ∧
    parseString [34, 97, 92, 117, 90, 90, 90, 90, 98, 34] = some ([97], []) ∧
    ∀ s, ¬ Spec.Str [92, 117, 90, 90, 90, 90, 98] s := by
  refine ⟨by decide, by decide, fun s => ?_⟩
  refine bad_escape_not_str (ds := [90, 90, 90, 90]) (q := [98]) rfl ?_
  rintro u ⟨a, b, c, d, w, x, y, z, he, hw, -⟩
  injection he with h1 _
  subst h1
  have := (hexVal_iff _ _).2 hw
  cases this

/-- **C106.** A low surrogate on its own is rejected, and so is a high surrogate that no low one
follows. -/
theorem lone_surrogate_rejected {ds : List Nat} {u : Nat} (h : Spec.Unit ds u) (t : List Nat)
    (hs : (0xDC00 ≤ u ∧ u ≤ 0xDFFF) ∨ (0xD800 ≤ u ∧ u ≤ 0xDBFF ∧
      ∀ es v q, t = 92 :: 117 :: (es ++ q) → Spec.Unit es v → ¬ (0xDC00 ≤ v ∧ v ≤ 0xDFFF))) :
    decode (92 :: 117 :: (ds ++ t)) = none := by
  obtain ⟨a, b, c, d, rfl⟩ := unit_shape h
  simp only [List.cons_append, List.nil_append]
  rw [decode_u, hex4_unit h]
  rcases hs with hs | ⟨h1, h2, h3⟩
  · rw [if_pos hs]
  · rw [if_neg (by omega), if_pos ⟨h1, h2⟩]
    split
    · next x y a' b' c' d' r3 =>
      split
      · rfl
      · next hxy =>
        have hx : x = 92 := by omega
        have hy : y = 117 := by omega
        subst hx; subst hy
        split
        · rfl
        · next hv =>
          exfalso
          rcases hex4_cases a' b' c' d' with hu | hu
          · exact h3 [a', b', c', d'] _ r3 rfl hu (by omega)
          · omega
    · rfl

example : parseString [34, 92, 117, 100, 56, 51, 100, 120, 34] = none := by decide

/-- **C106.** Printing a string and reading it back gives the string, whatever follows. -/
theorem string_print_read {s : List Nat} (h : ∀ c ∈ s, 0 < c ∧ c < 256) (r : List Nat) :
    parseString (printString s ++ r) = some (s, r) := by
  have := string_read (plain_str h).1 (plain_str h).2 r
  simpa [printString] using this

example : printString [97, 34, 10, 1, 0xC3, 0xA9] =
    [34, 97, 92, 34, 92, 110, 92, 117, 48, 48, 48, 49, 0xC3, 0xA9, 34] := by decide

/-- **C106.** A printed string is JSON, on one line: no control byte is left in it. -/
theorem string_print_visible {s : List Nat} (h : ∀ c ∈ s, c < 256) :
    (∃ t, printString s = 34 :: (t ++ [34]) ∧ Spec.Str t s) ∧ ∀ x ∈ printString s, 32 ≤ x := by
  refine ⟨⟨printBytes s, rfl, printBytes_str h⟩, ?_⟩
  have go : ∀ (s : List Nat), (∀ c ∈ s, c < 256) → ∀ x ∈ printBytes s, 32 ≤ x := by
    intro s
    induction s with
    | nil => intro _ x hx; cases hx
    | cons c s ih =>
      intro h x hx
      rcases List.mem_append.1 hx with hx | hx
      · exact printByte_visible hx (h c List.mem_cons_self)
      · exact ih (fun d hd => h d (List.mem_cons_of_mem _ hd)) x hx
  intro x hx
  simp only [printString, List.mem_cons, List.mem_append, List.not_mem_nil, or_false] at hx
  rcases hx with hx | hx | hx
  · omega
  · exact go s h x hx
  · omega

/-- **C106.** No write goes past a buffer: the printed string and its terminator take exactly the
space asked for, and the value that is read and its terminator fit in the space allocated. -/
theorem string_room (s : List Nat) : (printString s).length + 1 = printRoom s ∧
    ∀ b, decode b = some s → s.length + 1 ≤ parseRoom b := by
  constructor
  · simp only [printString, printRoom, List.length_cons, List.length_append, printBytes_length,
      List.length_nil]
  · intro b h
    have := decode_room _ b s (Nat.le_refl _) h
    unfold parseRoom
    omega

example : decode [92, 117, 48, 48, 101, 57, 92, 110] = some [0xC3, 0xA9, 10] ∧
    parseRoom [92, 117, 48, 48, 101, 57, 92, 110] = 8 := by decide

/-! ## C107: documents -/

theorem head_zero (w : List Nat) (h : Blank Spec.rfc w) :
    (w ++ [0]).head?.all (fun c => !numChar c) = true :=
  stop_blank (blank_le good_rfc h) rfl

theorem skipBom_small {t : List Nat} (h : ∀ c, t.head? = some c → c < 128) : skipBom t = t := by
  unfold skipBom
  split
  · next hb =>
    cases t with
    | nil => rfl
    | cons c t =>
      have := h c rfl
      have hc := congrArg List.head? hb.2
      simp at hc
      omega
  · rfl

/-- **C107.** Every JSON document nested at most 1000 deep is read as the value it writes, whatever
blanks surround it, with or without a byte order mark. -/
theorem doc_read {v : Item} {w t w' : List Nat} (h : Val Spec.rfc 1000 v t) (hw : Blank Spec.rfc w)
    (hw' : Blank Spec.rfc w') :
    parse (w ++ t ++ w') = some v ∧ parse ([0xEF, 0xBB, 0xBF] ++ (w ++ t ++ w')) = some v := by
  obtain ⟨c, r, rfl, hc, -, -, hlt⟩ := val_start good_rfc h
  have hv := val_complete good_rfc h 1000 (Nat.le_refl _) (w' ++ [0]) (head_zero w' hw')
  have e : w ++ c :: r ++ w' ++ [0] = w ++ c :: (r ++ (w' ++ [0])) := by simp
  have hsk : skip (w ++ c :: (r ++ (w' ++ [0]))) = c :: r ++ (w' ++ [0]) :=
    skip_blank (blank_le good_rfc hw) hc
  constructor
  · have hb : skipBom (w ++ c :: (r ++ (w' ++ [0]))) = w ++ c :: (r ++ (w' ++ [0])) := by
      refine skipBom_small ?_
      intro x hx
      cases w with
      | nil => simp at hx; omega
      | cons y w =>
        have := hw y List.mem_cons_self
        simp only [Spec.rfc] at this
        simp at hx
        omega
    unfold parse limit
    rw [e, hb, hsk, hv]
    rfl
  · have hb : skipBom ([0xEF, 0xBB, 0xBF] ++ (w ++ c :: (r ++ (w' ++ [0])))) =
        w ++ c :: (r ++ (w' ++ [0])) := by
      unfold skipBom
      rw [if_pos]
      · rfl
      · refine ⟨?_, rfl⟩
        simp only [List.length_append, List.length_cons, List.length_nil]
        omega
    unfold parse limit
    rw [List.append_assoc, e, hb, hsk, hv]
    rfl

/-- `{"a":[1,-2.5e3,true]}` and what it is read as. -/
example : (parse [123, 34, 97, 34, 58, 91, 49, 44, 45, 50, 46, 53, 101, 51, 44, 32, 116, 114, 117,
    101, 93, 125]) = some (.obj (.cons [97] (.arr (.cons (.num 1) (.cons (.real [45, 50, 46, 53, 101,
    51]) (.cons .tru .nil)))) .nil)) := by rfl

/-- **C107 (partial).** Nothing but a document is accepted, and it is nested at most 1000 deep: the
text starts with JSON for the value, over the looser tokens of the library.
What is missing: RFC 8259 would reject what follows the value (`doc_trailing_violated`), blanks that
are other control bytes, numbers like `01` or `1.`, and the strings of `string_cut_violated`. -/
theorem doc_accepts_partial {t : List Nat} {v : Item} (hz : 0 ∉ t) (h : parse t = some v) :
    ∃ bom w p rest, t = bom ++ (w ++ (p ++ rest)) ∧ (bom = [] ∨ bom = [0xEF, 0xBB, 0xBF]) ∧
      Blank Spec.loose w ∧ Val Spec.loose 1000 v p := by
  unfold parse limit at h
  simp only [Option.map_eq_some_iff, Prod.exists, exists_and_right, exists_eq_right] at h
  obtain ⟨r, hr⟩ := h
  have hbom : ∃ bom, t ++ [0] = bom ++ skipBom (t ++ [0]) ∧
      (bom = [] ∨ bom = [0xEF, 0xBB, 0xBF]) := by
    unfold skipBom
    split
    · next hb =>
      refine ⟨[0xEF, 0xBB, 0xBF], ?_, .inr rfl⟩
      conv => lhs; rw [← List.take_append_drop 3 (t ++ [0]), hb.2]
    · exact ⟨[], rfl, .inl rfl⟩
  obtain ⟨bom, hb, hbo⟩ := hbom
  have h0 : 0 ∉ bom := by rcases hbo with rfl | rfl <;> simp
  have ht : Term (skipBom (t ++ [0])) := term_suffix (p := bom) (by rw [← hb]; exact ⟨t, rfl, hz⟩) h0
  obtain ⟨p, hp, hval, r', hr', -⟩ := val_sound 1000 _ v r (term_skip ht) hr
  obtain ⟨w, hw, hwb⟩ := skip_any (skipBom (t ++ [0]))
  refine ⟨bom, w, p, r', ?_, hbo, hwb, hval⟩
  have : t ++ [0] = (bom ++ (w ++ (p ++ r'))) ++ [0] := by
    rw [hb, hw, hp, hr']; simp
  exact List.append_cancel_right this

/-- The last byte of a document. -/
theorem val_last {d : Nat} {v : Item} {t : List Nat} (h : Val Spec.rfc d v t) :
    ∃ u c, t = u ++ [c] ∧ c ≠ 120 := by
  cases h with
  | null => exact ⟨[110, 117, 108], 108, rfl, by omega⟩
  | fls => exact ⟨[102, 97, 108, 115], 101, rfl, by omega⟩
  | tru => exact ⟨[116, 114, 117], 101, rfl, by omega⟩
  | num d v t h =>
    have hc := num_chars h
    obtain ⟨c, r, rfl, -⟩ := num_head h
    rcases List.eq_nil_or_concat (c :: r) with hn | ⟨u, x, hx⟩
    · cases hn
    · rw [List.concat_eq_append] at hx
      refine ⟨u, x, hx, ?_⟩
      rintro rfl
      have := hc 120 (by rw [hx]; simp)
      cases this
  | str d t s h => exact ⟨34 :: t, 34, rfl, by omega⟩
  | arr0 d w hw => exact ⟨91 :: w, 93, rfl, by omega⟩
  | arr d l t h => exact ⟨91 :: t, 93, rfl, by omega⟩
  | obj0 d w hw => exact ⟨123 :: w, 125, rfl, by omega⟩
  | obj d m t h => exact ⟨123 :: t, 125, rfl, by omega⟩

/-- **C107** fails: `{}x`, which is no JSON document, is accepted. -/
theorem doc_trailing_violated : parse [123, 125, 120] = some (.obj .nil) ∧
    ∀ d v w t w', Blank Spec.rfc w → Blank Spec.rfc w' → Val Spec.rfc d v t →
      w ++ t ++ w' ≠ [123, 125, 120] := by
  refine ⟨rfl, ?_⟩
  intro d v w t w' hw hw' h he
  rcases List.eq_nil_or_concat w' with rfl | ⟨u', x, rfl⟩
  · obtain ⟨u, c, rfl, hc⟩ := val_last h
    have := congrArg List.getLast? he
    rw [List.append_nil, ← List.append_assoc, List.getLast?_concat] at this
    simp at this
    omega
  · rw [List.concat_eq_append] at he hw'
    have := congrArg List.getLast? he
    rw [← List.append_assoc, List.getLast?_concat] at this
    simp at this
    have hb := hw' x (by simp)
    simp only [Spec.rfc] at hb
    omega

mutual

theorem print_bytes (fmt : Bool) : ∀ (v : Item), Spec.Plain v → ∀ (k x : Nat),
    x ∈ printValue fmt k v → 32 ≤ x ∨ (fmt = true ∧ (x = 9 ∨ x = 10))
  | .null, _, k, x, hx => by simp [printValue] at hx; omega
  | .fls, _, k, x, hx => by simp [printValue] at hx; omega
  | .tru, _, k, x, hx => by simp [printValue] at hx; omega
  | .num i, _, k, x, hx => by
    rw [printValue] at hx
    have := num_chars (printInt_num i) x hx
    simp [numChar] at this
    omega
  | .real t, h, _, _, _ => by rw [Spec.Plain] at h; exact h.elim
  | .str s, h, k, x, hx => by
    rw [Spec.Plain] at h
    rw [printValue] at hx
    exact .inl ((string_print_visible fun c hc => (h c hc).2).2 x hx)
  | .arr l, h, k, x, hx => by
    rw [Spec.Plain] at h
    rw [printValue] at hx
    simp only [List.mem_cons, List.mem_append, List.not_mem_nil, or_false] at hx
    rcases hx with rfl | hx | rfl
    · omega
    · exact print_bytes_elems fmt l h (k + 1) x hx
    · omega
  | .obj m, h, k, x, hx => by
    rw [Spec.Plain] at h
    rw [printValue] at hx
    simp only [List.mem_cons, List.mem_append, List.not_mem_nil, or_false] at hx
    rcases hx with rfl | ((hx | hx) | hx) | rfl
    · omega
    · cases fmt <;> simp at hx ⊢
      omega
    · exact print_bytes_mems fmt m h (k + 1) x hx
    · cases fmt <;> simp [tabs] at hx ⊢
      omega
    · omega

theorem print_bytes_elems (fmt : Bool) : ∀ (l : Items), Spec.PlainElems l → ∀ (k x : Nat),
    x ∈ printElems fmt k l → 32 ≤ x ∨ (fmt = true ∧ (x = 9 ∨ x = 10))
  | .nil, _, k, x, hx => by simp [printElems] at hx
  | .cons v .nil, h, k, x, hx => by
    rw [Spec.PlainElems] at h
    rw [printElems] at hx
    exact print_bytes fmt v h.1 k x hx
  | .cons v (.cons w l), h, k, x, hx => by
    rw [Spec.PlainElems] at h
    rw [printElems] at hx
    simp only [List.mem_append] at hx
    rcases hx with (hx | hx) | hx
    · exact print_bytes fmt v h.1 k x hx
    · cases fmt <;> simp at hx ⊢ <;> omega
    · exact print_bytes_elems fmt (.cons w l) h.2 k x hx

theorem print_bytes_mems (fmt : Bool) : ∀ (m : Members), Spec.PlainMems m → ∀ (k x : Nat),
    x ∈ printMembers fmt k m → 32 ≤ x ∨ (fmt = true ∧ (x = 9 ∨ x = 10))
  | .nil, _, k, x, hx => by simp [printMembers] at hx
  | .cons k' v .nil, h, k, x, hx => by
    rw [Spec.PlainMems] at h
    rw [printMembers] at hx
    simp only [List.mem_append] at hx
    rcases hx with (((hx | hx) | hx) | hx) | hx
    · cases fmt <;> simp [tabs] at hx ⊢
      omega
    · exact .inl ((string_print_visible fun c hc => (h.1 c hc).2).2 x hx)
    · cases fmt <;> simp at hx ⊢ <;> omega
    · exact print_bytes fmt v h.2.1 k x hx
    · cases fmt <;> simp at hx ⊢
      omega
  | .cons k' v (.cons k2 w m), h, k, x, hx => by
    rw [Spec.PlainMems] at h
    rw [printMembers] at hx
    simp only [List.mem_append] at hx
    rcases hx with ((((hx | hx) | hx) | hx) | hx) | hx
    · cases fmt <;> simp [tabs] at hx ⊢
      omega
    · exact .inl ((string_print_visible fun c hc => (h.1 c hc).2).2 x hx)
    · cases fmt <;> simp at hx ⊢ <;> omega
    · exact print_bytes fmt v h.2.1 k x hx
    · cases fmt <;> simp at hx ⊢ <;> omega
    · exact print_bytes_mems fmt (.cons k2 w m) h.2.2 k x hx

end

/-- **C107.** What is printed is JSON for the value, in both formats; without formatting it is one
line. -/
theorem doc_print {v : Item} (h : Spec.Plain v) (fmt : Bool) :
    Val Spec.rfc (Spec.depth v) v (print fmt v) ∧ ∀ x ∈ print false v, 32 ≤ x := by
  refine ⟨print_val fmt v h 0 _ (Nat.le_refl _), ?_⟩
  intro x hx
  have := print_bytes false v h 0 x hx
  simpa using this

/-- **C107.** Printing a value and reading it back gives the value, in both formats, exactly when
arrays and objects are nested at most 1000 deep in it. -/
theorem doc_print_read (fmt : Bool) {v : Item} (h : Spec.Plain v) :
    parse (print fmt v) = some v ↔ Spec.depth v ≤ 1000 := by
  constructor
  · intro hp
    have hz : 0 ∉ print fmt v := by
      intro hm
      have := print_bytes fmt v h 0 0 hm
      omega
    obtain ⟨bom, w, p, rest, -, -, -, hval⟩ := doc_accepts_partial hz hp
    exact val_depth (fun v t h => num_depth h) hval
  · intro hd
    have hv := print_val fmt v h 0 1000 hd
    have := (doc_read hv (w := []) (w' := []) blank_nil blank_nil).1
    simpa [print] using this

/-- `{"k": ["a", -7, {}], "l": null}` is printed on one line and over several. -/
example : print false (.obj (.cons [107] (.arr (.cons (.str [97]) (.cons (.num (-7)) (.cons (.obj .nil)
    .nil)))) (.cons [108] .null .nil))) = [123, 34, 107, 34, 58, 91, 34, 97, 34, 44, 45, 55, 44, 123,
    125, 93, 44, 34, 108, 34, 58, 110, 117, 108, 108, 125] := by
  have h : printInt (-7) = [45, 55] := by
    show 45 :: decimal 7 = _
    rw [decimal]; rfl
  simp [print, printValue, printElems, printMembers, printString, printBytes, printByte, h]
example : print true (.obj (.cons [107] .tru (.cons [108] (.arr (.cons .null (.cons .fls .nil)))
    .nil))) = [123, 10, 9, 34, 107, 34, 58, 9, 116, 114, 117, 101, 44, 10, 9, 34, 108, 34, 58, 9, 91,
    110, 117, 108, 108, 44, 32, 102, 97, 108, 115, 101, 93, 10, 125] := by
  simp [print, printValue, printElems, printMembers, printString, printBytes, printByte, tabs]

/-- Arrays nested `n` deep. -/
def nest : Nat → Item
  | 0 => .arr .nil
  | n + 1 => .arr (.cons (nest n) .nil)

theorem nest_depth : ∀ (n : Nat), Spec.depth (nest n) = n + 1
  | 0 => rfl
  | n + 1 => by
    rw [nest, Spec.depth, Spec.depthElems, Spec.depthElems, nest_depth n]; omega

theorem nest_plain : ∀ (n : Nat), Spec.Plain (nest n)
  | 0 => by simp [nest, Spec.Plain, Spec.PlainElems]
  | n + 1 => by
    rw [nest, Spec.Plain, Spec.PlainElems, Spec.PlainElems]; exact ⟨nest_plain n, trivial⟩

/-- **C107** fails: arrays nested 1001 deep are printed, and what is printed is a JSON document, but
it is not read back. -/
theorem doc_deep_violated (fmt : Bool) : Val Spec.rfc 1001 (nest 1000) (print fmt (nest 1000)) ∧
    parse (print fmt (nest 1000)) ≠ some (nest 1000) ∧
    parse (print fmt (nest 999)) = some (nest 999) := by
  refine ⟨print_val fmt _ (nest_plain 1000) 0 1001 (by rw [nest_depth]; omega), ?_, ?_⟩
  · intro h
    have := (doc_print_read fmt (nest_plain 1000)).1 h
    rw [nest_depth] at this
    omega
  · exact (doc_print_read fmt (nest_plain 999)).2 (by rw [nest_depth]; omega)

/-! ## C108: looking a member up -/

/-- The name comparison of `cJSON_GetObjectItem`. -/
theorem lower_iff : ∀ (a b : List Nat), a.map lower = b.map lower ↔ Spec.SameLetters a b
  | [], [] => by simp [Spec.SameLetters.nil]
  | [], _ :: _ => by
    constructor
    · intro h; cases h
    · intro h; cases h
  | _ :: _, [] => by
    constructor
    · intro h; cases h
    · intro h; cases h
  | x :: a, y :: b => by
    have ih := lower_iff a b
    constructor
    · intro h
      simp only [List.map_cons, List.cons.injEq] at h
      have hs := ih.1 h.2
      have hxy : x = y ∨ (65 ≤ x ∧ x ≤ 90 ∧ y = x + 32) ∨ (65 ≤ y ∧ y ≤ 90 ∧ x = y + 32) := by
        have := h.1
        unfold lower at this
        split at this <;> split at this <;> omega
      rcases hxy with rfl | ⟨h1, h2, rfl⟩ | ⟨h1, h2, rfl⟩
      · exact .same x hs
      · have := Spec.SameLetters.up (x - 65) (by omega) hs
        have e1 : 65 + (x - 65) = x := by omega
        have e2 : 97 + (x - 65) = x + 32 := by omega
        rwa [e1, e2] at this
      · have := Spec.SameLetters.down (y - 65) (by omega) hs
        have e1 : 65 + (y - 65) = y := by omega
        have e2 : 97 + (y - 65) = y + 32 := by omega
        rwa [e1, e2] at this
    · intro h
      simp only [List.map_cons, List.cons.injEq]
      generalize hx : x :: a = p at h
      generalize hy : y :: b = q at h
      cases h with
      | nil => cases hx
      | same c h => cases hx; cases hy; exact ⟨rfl, ih.2 h⟩
      | up n hn h =>
        cases hx; cases hy
        refine ⟨?_, ih.2 h⟩
        unfold lower
        rw [if_pos (by omega), if_neg (by omega)]
        omega
      | down n hn h =>
        cases hx; cases hy
        refine ⟨?_, ih.2 h⟩
        unfold lower
        rw [if_neg (by omega), if_pos (by omega)]
        omega

theorem find_go (k : List Nat) : ∀ (m : Members),
    (∀ p ∈ Spec.list m, ¬ Spec.SameLetters k p.1) ∧ find false k m = none ∨
    ∃ pre k' v post, Spec.list m = pre ++ (k', v) :: post ∧ Spec.SameLetters k k' ∧
      (∀ p ∈ pre, ¬ Spec.SameLetters k p.1) ∧ find false k m = some v
  | .nil => .inl ⟨by simp [Spec.list], rfl⟩
  | .cons k' v m => by
    have ih := find_go k m
    by_cases h : Spec.SameLetters k k'
    · exact .inr ⟨[], k', v, Spec.list m, rfl, h, by simp, by
        rw [find]; simp [(lower_iff k k').2 h]⟩
    · have hf : find false k (.cons k' v m) = find false k m := by
        have : ¬ k.map lower = k'.map lower := fun e => h ((lower_iff k k').1 e)
        rw [find]; simp [this]
      rcases ih with ⟨h1, h2⟩ | ⟨pre, k2, v2, post, h1, h2, h3, h4⟩
      · refine .inl ⟨?_, by rw [hf, h2]⟩
        intro p hp
        rcases List.mem_cons.1 hp with rfl | hp
        · exact h
        · exact h1 p hp
      · refine .inr ⟨(k', v) :: pre, k2, v2, post, by rw [Spec.list, h1]; rfl, h2, ?_, by
          rw [hf, h4]⟩
        intro p hp
        rcases List.mem_cons.1 hp with rfl | hp
        · exact h
        · exact h3 p hp

/-- **C108 (partial).** `cJSON_GetObjectItem` gives the first member whose name differs from the
wanted one at most in the case of its letters, and nothing when there is none.
What is missing: JSON names are case-sensitive (`find_violated`). -/
theorem find_partial (k : List Nat) (m : Members) :
    (∀ v, find false k m = some v ↔ ∃ pre k' post, Spec.list m = pre ++ (k', v) :: post ∧
      Spec.SameLetters k k' ∧ ∀ p ∈ pre, ¬ Spec.SameLetters k p.1) ∧
    (find false k m = none ↔ ∀ p ∈ Spec.list m, ¬ Spec.SameLetters k p.1) := by
  have uniq : ∀ {l pre pre' post post' : List (List Nat × Item)} {a a' : List Nat} {v v' : Item},
      l = pre ++ (a, v) :: post → l = pre' ++ (a', v') :: post' →
      Spec.SameLetters k a → Spec.SameLetters k a' →
      (∀ p ∈ pre, ¬ Spec.SameLetters k p.1) → (∀ p ∈ pre', ¬ Spec.SameLetters k p.1) → v = v' := by
    intro l pre
    induction pre generalizing l with
    | nil =>
      intro pre' post post' a a' v v' e e' h h' n n'
      subst e
      cases pre' with
      | nil => cases e'; rfl
      | cons p pre' =>
        injection e' with e1 _
        have := n' p List.mem_cons_self
        rw [← e1] at this
        exact absurd h this
    | cons p pre ih =>
      intro pre' post post' a a' v v' e e' h h' n n'
      subst e
      cases pre' with
      | nil =>
        injection e' with e1 _
        have := n p List.mem_cons_self
        rw [e1] at this
        exact absurd h' this
      | cons p' pre' =>
        injection e' with _ e2
        exact ih rfl e2 h h' (fun q hq => n q (List.mem_cons_of_mem _ hq))
          (fun q hq => n' q (List.mem_cons_of_mem _ hq))
  rcases find_go k m with ⟨h1, h2⟩ | ⟨pre, k', v, post, h1, h2, h3, h4⟩
  · refine ⟨?_, by simp [h2]; exact fun a b hp => h1 (a, b) hp⟩
    intro v
    rw [h2]
    constructor
    · intro h; cases h
    · rintro ⟨pre, k', post, e, hs, -⟩
      exact absurd hs (h1 (k', v) (by rw [e]; simp))
  · constructor
    · intro v'
      rw [h4]
      constructor
      · intro h; cases h; exact ⟨pre, k', post, h1, h2, h3⟩
      · rintro ⟨pre', k2, post', e, hs, hn⟩
        rw [uniq h1 e h2 hs h3 hn]
    · rw [h4]
      constructor
      · intro h; cases h
      · intro h
        exact absurd h2 (h (k', v) (by rw [h1]; simp))

/-- `line` is found after `character`; `Line` is found as well. -/
example : find false [108] (.cons [99] (.num 3) (.cons [108] (.num 7) .nil)) = some (.num 7) ∧
    find false [108] (.cons [99] (.num 3) .nil) = none := ⟨rfl, rfl⟩

/-- **C108** fails: in `{"A":1,"a":2}` the member `a` is 1. -/
theorem find_violated : find false [97] (.cons [65] (.num 1) (.cons [97] (.num 2) .nil)) =
    some (.num 1) := rfl

/-- **C108.** If no other member has a name that differs from the wanted one in case only, the member
of that very name is found; and a member added to an object is found unless one was there. -/
theorem find_exact (k : List Nat) : ∀ (m : Members),
    (∀ p ∈ Spec.list m, Spec.SameLetters k p.1 → p.1 = k) →
    (find false k m = ((Spec.list m).find? (fun p => p.1 == k)).map (·.2)) ∧
    ∀ v, find false k (add k v m) = some ((find false k m).getD v)
  | .nil, _ => ⟨rfl, fun v => by simp [add, find]⟩
  | .cons k' v' m, h => by
    obtain ⟨h1, h2⟩ := find_exact k m fun p hp => h p (List.mem_cons_of_mem _ hp)
    by_cases hk : k' = k
    · subst hk
      exact ⟨by simp [find, Spec.list], fun v => by simp [find, add]⟩
    · have hn : ¬ k.map lower = k'.map lower := fun e =>
        hk (h (k', v') List.mem_cons_self ((lower_iff k k').1 e))
      refine ⟨?_, fun v => ?_⟩
      · rw [find]
        simp only [Bool.false_eq_true, if_false, hn, h1, Spec.list, List.find?_cons]
        have : (k' == k) = false := by simpa using hk
        simp [this]
      · rw [add, find, find]
        simp only [Bool.false_eq_true, if_false, hn, h2 v]

end Verif.CJson
