import Verif.Repl.Model
import Verif.LineEdit.Props

/-!
# Lemmas on the session
-/

namespace Verif.Repl

open Spec

/-- Blanks and tabs. -/
def Blanks (b : Str) : Prop := ∀ c ∈ b, c = ' ' ∨ c = '\t'

theorem skipBlank_split (l : Str) : ∃ b, l = b ++ skipBlank l ∧ Blanks b := by
  induction l with
  | nil => exact ⟨[], rfl, by intro c hc; simp at hc⟩
  | cons c r ih =>
    rw [skipBlank]
    split
    · rename_i hc
      obtain ⟨b, h1, h2⟩ := ih
      refine ⟨c :: b, by rw [List.cons_append, ← h1], ?_⟩
      intro d hd
      rcases List.mem_cons.mp hd with rfl | hd
      · exact hc
      · exact h2 d hd
    · exact ⟨[], rfl, by intro c hc; simp at hc⟩

theorem skipBlank_append {b : Str} (hb : Blanks b) (l : Str) : skipBlank (b ++ l) = skipBlank l := by
  induction b with
  | nil => rfl
  | cons c r ih =>
    have hc : c = ' ' ∨ c = '\t' := hb c (by simp)
    rw [List.cons_append, skipBlank, if_pos hc]
    exact ih (fun d hd => hb d (by simp [hd]))

theorem skipBlank_self {c : Char} {r : Str} (hc : ¬ (c = ' ' ∨ c = '\t')) :
    skipBlank (c :: r) = c :: r := by
  rw [skipBlank, if_neg hc]

theorem word_head : ∀ w ∈ headerWords, ∃ c r, w = c :: r ∧ ¬ (c = ' ' ∨ c = '\t') := by
  intro w hw
  simp only [headerWords, List.map_cons, List.map_nil, List.mem_cons, List.not_mem_nil, or_false]
    at hw
  rcases hw with h | h | h | h | h | h | h | h | h | h | h <;> rw [h]
  · exact ⟨'s', "truct".toList, by decide, by decide⟩
  · exact ⟨'i', "mpl".toList, by decide, by decide⟩
  · exact ⟨'f', "n".toList, by decide, by decide⟩
  · exact ⟨'u', "se".toList, by decide, by decide⟩
  · exact ⟨'i', "nclude".toList, by decide, by decide⟩
  · exact ⟨'t', "ypedef".toList, by decide, by decide⟩
  · exact ⟨'e', "num".toList, by decide, by decide⟩
  · exact ⟨'c', "onst".toList, by decide, by decide⟩
  · exact ⟨'d', "ef".toList, by decide, by decide⟩
  · exact ⟨'#', "include".toList, by decide, by decide⟩
  · exact ⟨'i', "mport".toList, by decide, by decide⟩

theorem words_eq : words = headerWords := rfl

/-- `is_header_line` looks for a word at the beginning, whatever follows it. -/
theorem isHeader_iff (l : Str) :
    isHeader l = true ↔ ∃ b w r, l = b ++ w ++ r ∧ Blanks b ∧ w ∈ words := by
  rw [words_eq]
  constructor
  · intro h
    obtain ⟨w, hw, hp⟩ := List.any_eq_true.mp h
    obtain ⟨b, hb, hB⟩ := skipBlank_split l
    obtain ⟨r, hr⟩ := List.isPrefixOf_iff_prefix.mp hp
    exact ⟨b, w, r, by rw [List.append_assoc, hr]; exact hb, hB, hw⟩
  · rintro ⟨b, w, r, rfl, hb, hw⟩
    refine List.any_eq_true.mpr ⟨w, hw, List.isPrefixOf_iff_prefix.mpr ⟨r, ?_⟩⟩
    obtain ⟨c, w', rfl, hc⟩ := word_head w hw
    rw [List.append_assoc, skipBlank_append hb, List.cons_append, skipBlank_self hc]

theorem isHeader_of_definition {l : Str} (h : Definition l) : isHeader l = true := by
  obtain ⟨b, w, r, h1, h2, h3, -⟩ := h
  exact (isHeader_iff l).mpr ⟨b, w, r, h1, h2, h3⟩

theorem isHeader_of_statement {l : Str} (h : Statement l) : isHeader l = false := by
  cases hh : isHeader l with
  | false => rfl
  | true =>
    obtain ⟨b, w, r, h1, h2, h3⟩ := (isHeader_iff l).mp hh
    exact absurd h3 (h b w r h1 h2)

theorem rawDepth_count (l : Str) : rawDepth l = (l.count '{' : Int) - (l.count '}' : Int) := by
  induction l with
  | nil => rfl
  | cons c r ih =>
    rw [rawDepth, ih]
    by_cases h1 : c = '{'
    · subst h1
      rw [if_pos rfl, List.count_cons_self, List.count_cons_of_ne (by decide)]
      omega
    · by_cases h2 : c = '}'
      · subst h2
        rw [if_neg h1, if_pos rfl, List.count_cons_self, List.count_cons_of_ne (by decide)]
        omega
      · rw [if_neg h1, if_neg h2, List.count_cons_of_ne h1, List.count_cons_of_ne h2]
        omega

theorem rawDepth_balanced {l : Str} (h : Balanced l) : rawDepth l = 0 := by
  rw [rawDepth_count]
  unfold Balanced at h
  omega

theorem rawDepth_append (a b : Str) : rawDepth (a ++ b) = rawDepth a + rawDepth b := by
  rw [rawDepth_count, rawDepth_count, rawDepth_count, List.count_append, List.count_append]
  omega

theorem snocInd {P : List Str → Prop} (nil : P []) (snoc : ∀ h l, P h → P (h ++ [l]))
    (h : List Str) : P h := by
  have : ∀ k : List Str, P k.reverse := by
    intro k
    induction k with
    | nil => exact nil
    | cons l k ih => rw [List.reverse_cons]; exact snoc _ _ ih
  have := this h.reverse
  rwa [List.reverse_reverse] at this

theorem getCode_snoc (h : List Str) (l : Str) : getCode (h ++ [l]) = codeStep (getCode h) l := by
  unfold getCode
  rw [List.foldl_append]
  rfl

theorem getCode_depth (h : List Str) (hb : ∀ l ∈ h, Balanced l) : (getCode h).depth = 0 := by
  induction h using snocInd with
  | nil => rfl
  | snoc h l ih =>
    rw [getCode_snoc]
    show (getCode h).depth + rawDepth l = 0
    rw [ih (fun x hx => hb x (by simp [hx])), rawDepth_balanced (hb l (by simp))]
    rfl

theorem codeStep_header {c : Code} {l : Str} (hd : c.depth = 0) (h : isHeader l = true) :
    (codeStep c l).glob = c.glob ++ l ++ ['\n'] ∧ (codeStep c l).main = c.main := by
  unfold codeStep
  rw [if_pos hd, h]
  exact ⟨rfl, rfl⟩

theorem codeStep_stmt {c : Code} {l : Str} (hd : c.depth = 0) (h : isHeader l = false) :
    (codeStep c l).glob = c.glob ∧ (codeStep c l).main = c.main ++ l ++ [' '] := by
  unfold codeStep
  rw [if_pos hd, h]
  exact ⟨rfl, rfl⟩

/-- The two texts of `repl_get_code` fit the blocks it makes for them: an entry adds one character to
its own, and two are counted for it. -/
theorem getCode_fits (h : List Str) :
    (getCode h).glob.length + (getCode h).main.length ≤ (h.map (fun l => l.length + 1)).sum := by
  induction h using snocInd with
  | nil => exact Nat.le_refl _
  | snoc h l ih =>
    rw [getCode_snoc, List.map_append, List.sum_append]
    unfold codeStep
    simp only
    generalize (if (getCode h).depth = 0 then isHeader l else (getCode h).inG) = g
    cases g <;> simp <;> omega

/-! ## Brackets -/

theorem scan_append (s : Scan) (a b : Str) : (a ++ b).foldl scan1 s = b.foldl scan1 (a.foldl scan1 s) :=
  List.foldl_append

theorem scan_code (s : Str) (b p : Int) (hq : '"' ∉ s) (hb : '\\' ∉ s) :
    s.foldl scan1 ⟨false, false, b, p⟩ =
      ⟨false, false, b + ((s.count '{' : Int) - (s.count '}' : Int)),
        p + ((s.count '(' : Int) - (s.count ')' : Int))⟩ := by
  induction s generalizing b p with
  | nil => simp
  | cons c r ih =>
    have h1 : c ≠ '"' := fun h => hq (by simp [h])
    have h2 : c ≠ '\\' := fun h => hb (by simp [h])
    have ih := fun b p => ih b p (fun h => hq (by simp [h])) (fun h => hb (by simp [h]))
    rw [List.foldl_cons]
    by_cases c1 : c = '{'
    · subst c1
      have : scan1 ⟨false, false, b, p⟩ '{' = ⟨false, false, b + 1, p⟩ := rfl
      rw [this, ih, List.count_cons_self, List.count_cons_of_ne (by decide),
        List.count_cons_of_ne (by decide), List.count_cons_of_ne (by decide)]
      congr 1; omega
    · by_cases c2 : c = '}'
      · subst c2
        have : scan1 ⟨false, false, b, p⟩ '}' = ⟨false, false, b - 1, p⟩ := rfl
        rw [this, ih, List.count_cons_self, List.count_cons_of_ne (by decide),
          List.count_cons_of_ne (by decide), List.count_cons_of_ne (by decide)]
        congr 1; omega
      · by_cases c3 : c = '('
        · subst c3
          have : scan1 ⟨false, false, b, p⟩ '(' = ⟨false, false, b, p + 1⟩ := rfl
          rw [this, ih, List.count_cons_self, List.count_cons_of_ne (by decide),
            List.count_cons_of_ne (by decide), List.count_cons_of_ne (by decide)]
          congr 1; omega
        · by_cases c4 : c = ')'
          · subst c4
            have : scan1 ⟨false, false, b, p⟩ ')' = ⟨false, false, b, p - 1⟩ := rfl
            rw [this, ih, List.count_cons_self, List.count_cons_of_ne (by decide),
              List.count_cons_of_ne (by decide), List.count_cons_of_ne (by decide)]
            congr 1; omega
          · have : scan1 ⟨false, false, b, p⟩ c = ⟨false, false, b, p⟩ := by
              unfold scan1
              rw [if_neg (by simp), if_neg h2, if_neg h1, if_neg (by simp), if_neg c1, if_neg c2,
                if_neg c3, if_neg c4]
            rw [this, ih, List.count_cons_of_ne c1, List.count_cons_of_ne c2,
              List.count_cons_of_ne c3, List.count_cons_of_ne c4]

theorem scan_body {s : Str} (h : Body s) (b p : Int) :
    s.foldl scan1 ⟨true, false, b, p⟩ = ⟨true, false, b, p⟩ := by
  induction h with
  | nil => rfl
  | char h1 h2 _ ih =>
    rename_i c s _
    rw [List.foldl_cons]
    have : scan1 ⟨true, false, b, p⟩ c = ⟨true, false, b, p⟩ := by
      unfold scan1
      rw [if_neg (by simp), if_neg h2, if_neg h1, if_pos rfl]
    rw [this, ih]
  | esc _ ih =>
    rw [List.foldl_cons, List.foldl_cons]
    exact ih

theorem scan_piece (q : Piece) (hq : q.Ok) (b p : Int) :
    q.text.foldl scan1 ⟨false, false, b, p⟩ =
      ⟨false, false, b + excess '{' '}' [q], p + excess '(' ')' [q]⟩ := by
  cases q with
  | code s =>
    rw [Piece.text, scan_code s b p hq.1 hq.2]
    simp [excess]
  | str s =>
    rw [Piece.text, List.foldl_cons, scan_append]
    have : scan1 ⟨false, false, b, p⟩ '"' = ⟨true, false, b, p⟩ := rfl
    rw [this, scan_body hq]
    simp [excess, scan1]

theorem excess_cons (a b : Char) (q : Piece) (ps : List Piece) :
    excess a b (q :: ps) = excess a b [q] + excess a b ps := by
  simp only [excess, List.map_cons, List.sum_cons, List.map_nil, List.sum_nil]
  omega

theorem scan_pieces (ps : List Piece) (hp : ∀ q ∈ ps, q.Ok) (b p : Int) :
    (text ps).foldl scan1 ⟨false, false, b, p⟩ =
      ⟨false, false, b + excess '{' '}' ps, p + excess '(' ')' ps⟩ := by
  induction ps generalizing b p with
  | nil => simp [text, excess]
  | cons q ps ih =>
    have : text (q :: ps) = q.text ++ text ps := rfl
    rw [this, scan_append, scan_piece q (hp q (by simp)), ih (fun x hx => hp x (by simp [hx])),
      excess_cons _ _ q ps, excess_cons _ _ q ps]
    congr 1 <;> omega

/-- The scanner counts the brackets of the code of a line. -/
theorem scanLine_pieces (ps : List Piece) (hp : ∀ q ∈ ps, q.Ok) :
    scanLine 0 0 (text ps ++ ['\n']) =
      ⟨false, false, excess '{' '}' ps, excess '(' ')' ps⟩ := by
  unfold scanLine
  rw [scan_append, scan_pieces ps hp]
  simp [scan1]

/-! ## Lines -/

theorem trimEnd_split (l : Str) : ∃ b, l = trimEnd l ++ b ∧ Blanks b := by
  obtain ⟨b, h1, h2⟩ := skipBlank_split l.reverse
  refine ⟨b.reverse, ?_, ?_⟩
  · unfold trimEnd
    rw [← List.reverse_append, ← h1, List.reverse_reverse]
  · intro c hc
    exact h2 c (List.mem_reverse.mp hc)

theorem trimEnd_head {l : Str} {c : Char} (h : (trimEnd l).head? = some c) : l.head? = some c := by
  obtain ⟨b, h1, -⟩ := trimEnd_split l
  cases ht : trimEnd l with
  | nil => rw [ht] at h; exact absurd h (by simp)
  | cons d r =>
    rw [ht] at h h1
    rw [h1]
    simpa using h

end Verif.Repl
