import Verif.Repl.Props

/-!
# The program of a session, its memory, the history file and the commands

C119, C120, C121 and C122.
-/

namespace Verif.Repl

open Spec

/-! ## C119: the program that is run -/

theorem session_code {h : List Str} {g m : Str} (hs : Session h g m) :
    (getCode h).glob = g ∧ (getCode h).main = m ∧ (getCode h).depth = 0 := by
  induction hs with
  | nil => exact ⟨rfl, rfl, rfl⟩
  | defn _ hd hb ih =>
    rename_i h g m l _
    rw [getCode_snoc]
    obtain ⟨h1, h2, h3⟩ := ih
    obtain ⟨k1, k2⟩ := codeStep_header h3 (isHeader_of_definition hd)
    refine ⟨by rw [k1, h1], by rw [k2, h2], ?_⟩
    show (getCode h).depth + rawDepth l = 0
    rw [h3, rawDepth_balanced hb]; rfl
  | stmt _ hd hb ih =>
    rename_i h g m l _
    rw [getCode_snoc]
    obtain ⟨h1, h2, h3⟩ := ih
    obtain ⟨k1, k2⟩ := codeStep_stmt h3 (isHeader_of_statement hd)
    refine ⟨by rw [k1, h1], by rw [k2, h2], ?_⟩
    show (getCode h).depth + rawDepth l = 0
    rw [h3, rawDepth_balanced hb]; rfl

theorem mainOpen_length : mainOpen.length = 35 := by decide +kernel
theorem restore_length : restore.length = 21 := by decide +kernel

theorem lastText_cases (E : Env) (h : List Str) (l : Str) :
    lastText E h l = l ∨ lastText E h l = "println \"{".toList ++ l ++ "}\";".toList := by
  unfold lastText
  split
  · split
    · exact .inl rfl
    · exact .inr rfl
  · exact .inl rfl

/-- C119, the good half: an entry that is a definition gives the program of all the definitions, in
order, and a `main` of all the statements, in order, that prints nothing. -/
theorem definition_program (E : Env) {h : List Str} {g m l : Str} (hs : Session h g m)
    (hd : Definition l) (hb : Balanced l) :
    program E [] h l =
      .ok (g ++ l ++ ['\n'] ++ mainOpen ++ m ++ restore ++ " }".toList) := by
  obtain ⟨h1, h2, -⟩ := session_code (.defn hs hd hb)
  unfold program
  simp only [h1, h2, isHeader_of_definition hd, if_true, Res.ok_bind, List.append_nil]
  rw [if_pos]
  simp only [List.length_append, mainOpen_length, restore_length]
  have : (" }".toList).length = 2 := by decide
  rw [this]
  omega

/-- What comes behind the main code for a statement: the statement, or the statement printed. -/
theorem statement_program (E : Env) {h : List Str} {g m l : Str} (hs : Session h g m)
    (hd : Statement l) (hb : Balanced l) (hn : l.length ≤ 4000) :
    ∃ t, (t = l ∨ t = "println \"{".toList ++ l ++ "}\";".toList) ∧ t = lastText E h l ∧
      program E [] h l =
        .ok (g ++ mainOpen ++ (m ++ l ++ [' ']) ++ restore ++ t ++ " }".toList) := by
  obtain ⟨h1, h2, -⟩ := session_code (.stmt hs hd hb)
  refine ⟨lastText E h l, lastText_cases E h l, rfl, ?_⟩
  have hl : (lastText E h l).length ≤ l.length + 13 := by
    have a : ("println \"{".toList).length = 10 := by decide
    have b : ("}\";".toList).length = 3 := by decide
    rcases lastText_cases E h l with e | e <;> rw [e]
    · omega
    · simp only [List.length_append]; omega
  unfold program
  simp only [h1, h2, isHeader_of_statement hd, if_true, Res.ok_bind, List.append_nil]
  rw [if_pos]
  · simp
  · simp only [List.length_append, mainOpen_length, restore_length]
    have : (" }".toList).length = 2 := by decide
    rw [this]
    simp only [Bool.false_eq_true, if_false]
    omega

/-- C119, violated: a statement is in the program twice, one time behind the other statements and one
time behind `_z_restore_stdout`, so all it does it does twice. -/
theorem statement_twice_violated (E : Env) {h : List Str} {g m l : Str} (hs : Session h g m)
    (hd : Statement l) (hb : Balanced l) (hn : l.length ≤ 4000) :
    ∃ a b c, program E [] h l = .ok (a ++ l ++ b ++ l ++ c) ∧ mainOpen <:+: a ∧
      (b = ' ' :: restore ∨ b = ' ' :: restore ++ "println \"{".toList) := by
  obtain ⟨t, ht, -, hp⟩ := statement_program E hs hd hb hn
  rcases ht with ht | ht
  · refine ⟨g ++ mainOpen ++ m, ' ' :: restore, " }".toList, ?_, ⟨g, m, by simp⟩, .inl rfl⟩
    rw [hp, ht]; simp
  · refine ⟨g ++ mainOpen ++ m, ' ' :: restore ++ "println \"{".toList, "}\"; }".toList, ?_,
      ⟨g, m, by simp⟩, .inr rfl⟩
    rw [hp, ht]; simp

/-- C119, violated: a line that goes on with a word that only begins with one of the keywords
(`user = 5`, `fnord()`, `default_port = 1`, `constant + 1`) is put outside of `main`. -/
theorem prefix_violated {h : List Str} {g m : Str} (hs : Session h g m) {b w r : Str}
    (hb : Blanks b) (hw : w ∈ words) :
    (getCode (h ++ [b ++ w ++ r])).glob = g ++ (b ++ w ++ r) ++ ['\n'] ∧
      (getCode (h ++ [b ++ w ++ r])).main = m := by
  obtain ⟨h1, h2, h3⟩ := session_code hs
  rw [getCode_snoc]
  obtain ⟨k1, k2⟩ := codeStep_header (c := getCode h) h3
    ((isHeader_iff _).mpr ⟨b, w, r, rfl, hb, hw⟩)
  exact ⟨by rw [k1, h1], by rw [k2, h2]⟩

/-- C119, violated: behind a statement with a brace in a string (one more `{` than `}`), definitions
are put into `main`. -/
theorem brace_in_string_violated {h : List Str} {g m l d : Str} (hs : Session h g m)
    (hl : Statement l) (hc : l.count '{' = l.count '}' + 1) :
    (getCode (h ++ [l] ++ [d])).glob = g ∧
      (getCode (h ++ [l] ++ [d])).main = m ++ l ++ [' '] ++ d ++ [' '] := by
  obtain ⟨h1, h2, h3⟩ := session_code hs
  obtain ⟨k1, k2⟩ := codeStep_stmt (c := getCode h) h3 (isHeader_of_statement hl)
  have hd : (codeStep (getCode h) l).depth ≠ 0 := by
    show (getCode h).depth + rawDepth l ≠ 0
    rw [h3, rawDepth_count]
    omega
  have hg : (codeStep (getCode h) l).inG = false := by
    show (if (getCode h).depth = 0 then isHeader l else _) = false
    rw [if_pos h3, isHeader_of_statement hl]
  rw [getCode_snoc, getCode_snoc]
  have e : ∀ c : Code, c.depth ≠ 0 → c.inG = false →
      (codeStep c d).glob = c.glob ∧ (codeStep c d).main = c.main ++ d ++ [' '] := by
    intro c hc hg
    unfold codeStep
    rw [if_neg hc, hg]
    exact ⟨rfl, rfl⟩
  obtain ⟨e1, e2⟩ := e _ hd hg
  exact ⟨by rw [e1, k1, h1], by rw [e2, k2, h2]⟩

/-- C119, violated: whether an entry is an expression is asked of its first seven characters.  When
they are one, the rest of the entry does not matter. -/
theorem seven_violated (E : Env) (h : List Str) {v : Str} (hv : v.length = 7)
    (hx : E.isExpr (v ++ [';']) = true) (r : Str) (hn : E.isVoid (probe h (v ++ r)) = false) :
    lastText E h (v ++ r) = "println \"{".toList ++ (v ++ r) ++ "}\";".toList := by
  have : checkText (v ++ r) = v ++ [';'] := by
    unfold checkText
    rw [List.take_append_of_le_length (by omega), List.take_of_length_le (by omega)]
  unfold lastText
  rw [this, hx, hn]
  rfl

/-- C119, violated: a comment at the end of a statement takes everything behind it along, to the end
of the program: it is all on one line. -/
theorem comment_violated (E : Env) {h : List Str} {g m a b : Str} (hs : Session h g m)
    (hd : Statement (a ++ "//".toList ++ b)) (hb : Balanced (a ++ "//".toList ++ b))
    (hn : (a ++ "//".toList ++ b).length ≤ 4000) (ha : '\n' ∉ a) (hbn : '\n' ∉ b) :
    ∃ post, program E [] h (a ++ "//".toList ++ b) =
        .ok (g ++ mainOpen ++ m ++ a ++ "//".toList ++ post) ∧ '\n' ∉ post := by
  obtain ⟨t, ht, -, hp⟩ := statement_program E hs hd hb hn
  refine ⟨b ++ [' '] ++ restore ++ t ++ " }".toList, ?_, ?_⟩
  · rw [hp]; simp
  · have n1 : '\n' ∉ "//".toList := by decide
    have n2 : '\n' ∉ restore := by decide +kernel
    have n3 : '\n' ∉ " }".toList := by decide
    have n4 : '\n' ∉ "println \"{".toList := by decide
    have n5 : '\n' ∉ "}\";".toList := by decide
    have n6 : '\n' ∉ [' '] := by decide
    have nt : '\n' ∉ t := by
      rcases ht with ht | ht <;> rw [ht]
      · simp only [List.mem_append, not_or]; exact ⟨⟨ha, n1⟩, hbn⟩
      · simp only [List.mem_append, not_or]; exact ⟨⟨n4, ⟨ha, n1⟩, hbn⟩, n5⟩
    simp only [List.mem_append, not_or]
    exact ⟨⟨⟨⟨hbn, n6⟩, n2⟩, nt⟩, n3⟩

/-! ## C120: the memory of the program text -/

theorem watchText_length (w : Str) : (watchText w).length = 2 * w.length + 62 := by
  have a : ("printf(\"\\033[90mwatch:".toList).length = 22 := by decide +kernel
  have b : (" = \\033[0m\"); print \"{".toList).length = 22 := by decide +kernel
  have c : ("}\"; printf(\"\\n\"); ".toList).length = 18 := by decide +kernel
  unfold watchText
  simp only [List.length_append, a, b, c]
  omega

theorem watchesText_ok (ws : List Str) (h : ∀ w ∈ ws, w.length ≤ 480) :
    ∃ t, watchesText ws = .ok t ∧ t.length ≤ 1023 * ws.length := by
  induction ws with
  | nil => exact ⟨[], rfl, Nat.le_refl _⟩
  | cons w r ih =>
    obtain ⟨t, h1, h2⟩ := ih (fun x hx => h x (by simp [hx]))
    have hw := h w (by simp)
    have hl := watchText_length w
    refine ⟨watchText w ++ t, ?_, ?_⟩
    · rw [watchesText, if_pos (by omega), h1]; rfl
    · simp only [List.length_append, List.length_cons]
      omega

/-- C120: for an entry of a line, and watches of at most 480 characters, the program text fits. -/
theorem program_fits (E : Env) (ws h : List Str) (l : Str) (hl : l.length ≤ 1022)
    (hw : ∀ w ∈ ws, w.length ≤ 480) (hn : ws.length ≤ 16) : ∃ p, program E ws h l = .ok p := by
  have hlast : (if isHeader l then [] else lastText E h l).length ≤ l.length + 13 := by
    have a : ("println \"{".toList).length = 10 := by decide
    have b : ("}\";".toList).length = 3 := by decide
    split
    · simp
    · rcases lastText_cases E h l with e | e <;> rw [e]
      · omega
      · simp only [List.length_append]; omega
  have e2 : (" }".toList).length = 2 := by decide
  have e3 : ("; ".toList).length = 2 := by decide
  unfold program
  by_cases hz : ws = []
  · subst hz
    simp only [if_true, Res.ok_bind]
    rw [if_pos]
    · exact ⟨_, rfl⟩
    · simp only [List.length_append, mainOpen_length, restore_length, e2, List.length_nil]
      omega
  · obtain ⟨t, h1, h2⟩ := watchesText_ok ws hw
    have : 1023 * ws.length ≤ 1023 * 16 := Nat.mul_le_mul_left _ hn
    simp only [if_neg hz, h1, Res.ok_bind]
    rw [if_pos]
    · exact ⟨_, rfl⟩
    · simp only [List.length_append, mainOpen_length, restore_length, e2, e3]
      omega

/-- C120, violated: a watch of 481 characters or more does not fit the buffer it is put into, so the
next entry overruns it. -/
theorem long_watch_violated (E : Env) (h : List Str) {ws : List Str} {w : Str} (hw : w ∈ ws)
    (hl : 481 ≤ w.length) (l : Str) : program E ws h l = .ub := by
  have : ∀ ws : List Str, w ∈ ws → watchesText ws = .ub := by
    intro ws
    induction ws with
    | nil => intro h; simp at h
    | cons v r ih =>
      intro hm
      rw [watchesText]
      by_cases hv : (watchText v).length < 1024
      · rw [if_pos hv]
        rcases List.mem_cons.mp hm with rfl | hm
        · rw [watchText_length] at hv; omega
        · rw [ih hm]; rfl
      · rw [if_neg hv]
  have hne : ws ≠ [] := by intro h; rw [h] at hw; simp at hw
  unfold program
  simp only [if_neg hne, this ws hw]
  rfl

/-- Such a watch can be set: `:watch` takes all that a line has room for. -/
theorem long_watch_reached (E : Env) (h : List Str) {w : Str} (hn : w.length ≤ 1000)
    (h0 : w.head? ≠ some ' ') (h1 : ∃ v c, w = v ++ [c] ∧ c ≠ ' ' ∧ c ≠ '\t') :
    line E (some (":watch ".toList ++ w)) (St.new h) =
      .ok (.go { St.new h with watches := [w] }) := by
  obtain ⟨v, c, rfl, c1, c2⟩ := h1
  have e7 : (":watch ".toList).length = 7 := by decide
  have hl : (":watch ".toList ++ (v ++ [c])).length ≤ 1022 := by
    rw [List.length_append, e7]; omega
  have ht : trimEnd (":watch ".toList ++ (v ++ [c])) = ":watch ".toList ++ (v ++ [c]) := by
    unfold trimEnd
    rw [← List.append_assoc, List.reverse_append, List.reverse_singleton,
      show [c] ++ (":watch ".toList ++ v).reverse = c :: (":watch ".toList ++ v).reverse from rfl,
      skipBlank_self (fun h => h.elim c1 c2)]
    simp
  unfold line
  simp only [List.take_of_length_le hl, ht]
  have hc : command E (":watch ".toList ++ (v ++ [c])) (St.new h) =
      .ok (.go { St.new h with watches := [v ++ [c]] }) := by
    have hw : watchCmd (v ++ [c]) (St.new h) = { St.new h with watches := [v ++ [c]] } := by
      unfold watchCmd
      have : (v ++ [c]).dropWhile (· = ' ') = v ++ [c] := by
        cases v with
        | nil =>
          rw [List.nil_append, List.dropWhile_cons_of_neg (by simpa using c1)]
        | cons a v =>
          rw [List.cons_append, List.dropWhile_cons_of_neg]
          intro ha
          exact h0 (by simpa using ha)
      simp [this, St.new]
    unfold command
    simp [hw]
  rw [if_pos (by rfl), if_neg (by simp), if_neg (by simp), if_pos (by simp), hc]
  rfl

/-! ## C121: the history file -/

theorem fgets_line (n : Nat) (l t : Str) (hl : '\n' ∉ l) (hn : l.length < n) :
    fgets n (l ++ '\n' :: t) = (l ++ ['\n'], t) := by
  induction l generalizing n with
  | nil =>
    cases n with
    | zero => simp at hn
    | succ n => simp [fgets]
  | cons c r ih =>
    cases n with
    | zero => simp at hn
    | succ n =>
      have hc : c ≠ '\n' := fun h => hl (by simp [h])
      rw [List.cons_append, fgets, if_neg hc,
        ih n (fun h => hl (by simp [h])) (by simpa using hn)]
      rfl

theorem loadLines_line (l t : Str) (hl : '\n' ∉ l) (hn : l.length < 1023) (h0 : l ≠ []) :
    loadLines (l ++ '\n' :: t) = l :: loadLines t := by
  rw [loadLines, dif_neg (by simp)]
  simp only [fgets_line 1023 l t hl hn]
  have : (if (l ++ ['\n']).getLast? = some '\n' then (l ++ ['\n']).dropLast else l ++ ['\n']) = l := by
    rw [if_pos (by simp), List.dropLast_concat]
  rw [this, if_neg h0]

theorem loadLines_blank (t : Str) : loadLines ('\n' :: t) = loadLines t := by
  have := fgets_line 1023 [] t (by simp) (by decide)
  rw [List.nil_append] at this
  rw [loadLines, dif_neg (by simp)]
  simp only [this]
  simp

theorem loadLines_nil : loadLines [] = [] := by rw [loadLines, dif_pos rfl]

/-- An entry that comes back from the history file as it was: one line, not empty, not too long. -/
def OneLine (l : Str) : Prop := '\n' ∉ l ∧ l.length < 1023 ∧ l ≠ []

instance (l : Str) : Decidable (OneLine l) := by unfold OneLine; infer_instance

theorem load_flat (h : List Str) (hh : ∀ l ∈ h, OneLine l) (t : Str) :
    loadLines (h.flatMap (fun l => l ++ ['\n']) ++ t) = h ++ loadLines t := by
  induction h with
  | nil => rfl
  | cons l h ih =>
    obtain ⟨h1, h2, h3⟩ := hh l (by simp)
    rw [List.flatMap_cons, List.append_assoc, List.append_assoc]
    show loadLines (l ++ '\n' :: _) = _
    rw [loadLines_line l _ h1 h2 h3]
    exact congrArg (l :: ·) (ih (fun x hx => hh x (by simp [hx])))

/-- C121, in part: the last thousand entries of one line each come back as they were.  What is missing
are entries of more than one line, which `:edit` makes; see the next theorem. -/
theorem history_round_trip_partial (h : List Str) (hh : ∀ l ∈ h, OneLine l) :
    loadLines (saveLines h) = h.drop (h.length - 1000) := by
  have := load_flat (h.drop (h.length - 1000)) (fun l hl => hh l (List.mem_of_mem_drop hl)) []
  rw [List.append_nil, loadLines_nil, List.append_nil] at this
  exact this

/-- C121, violated: an entry of two lines comes back as two entries. -/
theorem two_lines_violated {a b : Str} (ha : OneLine a) (hb : OneLine b) :
    loadLines (saveLines [a ++ '\n' :: b]) = [a, b] := by
  have : saveLines [a ++ '\n' :: b] = [a, b].flatMap (fun l => l ++ ['\n']) := by
    simp [saveLines]
  rw [this]
  have := load_flat [a, b] (by intro l hl; simp at hl; rcases hl with rfl | rfl <;> assumption) []
  rw [List.append_nil, loadLines_nil, List.append_nil] at this
  exact this

/-- C121, violated: a definition whose second line does not begin with a keyword is torn apart; after
reading it back its first line is a definition, and its second a statement. -/
theorem torn_definition_violated {a b : Str} (ha : OneLine a) (hb : OneLine b)
    (hd : Definition (a ++ '\n' :: b)) (hda : Definition a) (hs : Statement b) (hba : Balanced a)
    (hbb : Balanced b) :
    ((getCode [a ++ '\n' :: b]).glob = a ++ '\n' :: b ++ ['\n'] ∧
        (getCode [a ++ '\n' :: b]).main = []) ∧
      (getCode (loadLines (saveLines [a ++ '\n' :: b]))).glob = a ++ ['\n'] ∧
      (getCode (loadLines (saveLines [a ++ '\n' :: b]))).main = b ++ [' '] := by
  have hbal : Balanced (a ++ '\n' :: b) := by
    unfold Balanced at *
    rw [List.count_append, List.count_append, List.count_cons_of_ne (by decide),
      List.count_cons_of_ne (by decide)]
    omega
  have s1 := session_code (.defn .nil hd hbal)
  have s2 := session_code (.stmt (.defn .nil hda hba) hs hbb)
  rw [two_lines_violated ha hb]
  simp only [List.nil_append] at s1 s2
  exact ⟨⟨s1.1, s1.2.1⟩, s2.1, s2.2.1⟩

/-- C121, violated: leaving a session does not write the history.  As long as no entry has been run and
no line is open, what the commands have made of the history is nowhere but in memory. -/
theorem exit_saves_nothing_violated (E : Env) (h : List Str) (n : Nat) (input rest : Str) (x : Next)
    (hr : rounds E n (St.new h) input = .ok (x, rest)) (h0 : x.st.ran = []) (hb : x.st.buf = none) :
    x.st.file = none := by
  rcases rounds_inv n (.inl ⟨rfl, rfl, rfl⟩) hr with ⟨-, h2, -⟩ | ⟨-, -, h3⟩
  · exact h2
  · rcases h3 with h3 | h3
    · exact absurd h0 h3
    · exact absurd hb h3

/-- C121: what is written to the history file by an entry are the entries that ran. -/
theorem entry_saves (E : Env) (h : List Str) {t p : Str} (ht : Entry t)
    (hp : program E [] h t = .ok p) :
    ∃ s, line E (some t) (St.new h) = .ok (.go s) ∧ s.ran = [p] ∧
      (E.run p = true → s.file = some (saveLines (h ++ [t]))) ∧
      (E.run p = false → s.file = some (saveLines h)) := by
  refine ⟨_, first_entry E h ht hp, rfl, ?_, ?_⟩ <;> intro hr <;> simp [hr]

/-- The definitions of a session, and its statements in one line. -/
inductive Parts : List Str → List Str → Str → Prop
  | nil : Parts [] [] []
  | defn {h d : List Str} {m l : Str} : Parts h d m → Definition l → Balanced l → OneLine l →
      Parts (h ++ [l]) (d ++ [l]) m
  | stmt {h d : List Str} {m l : Str} : Parts h d m → Statement l → Balanced l → '\n' ∉ l →
      Parts (h ++ [l]) d (m ++ l ++ [' '])

theorem Parts.session {h d : List Str} {m : Str} (hp : Parts h d m) :
    Session h (d.flatMap (fun l => l ++ ['\n'])) m ∧ (∀ l ∈ d, OneLine l) ∧ '\n' ∉ m ∧
      (∀ l ∈ d, Definition l ∧ Balanced l) := by
  induction hp with
  | nil => exact ⟨.nil, by simp, by simp, by simp⟩
  | defn _ h1 h2 h3 ih =>
    obtain ⟨i1, i2, i3, i4⟩ := ih
    refine ⟨?_, ?_, i3, ?_⟩
    · rw [List.flatMap_append, List.flatMap_singleton, ← List.append_assoc]
      exact .defn i1 h1 h2
    · intro l hl
      rcases List.mem_append.mp hl with hl | hl
      · exact i2 l hl
      · rw [List.mem_singleton.mp hl]; exact h3
    · intro l hl
      rcases List.mem_append.mp hl with hl | hl
      · exact i4 l hl
      · rw [List.mem_singleton.mp hl]; exact ⟨h1, h2⟩
  | stmt _ h1 h2 h3 ih =>
    obtain ⟨i1, i2, i3, i4⟩ := ih
    refine ⟨.stmt i1 h1 h2, i2, ?_, i4⟩
    simp only [List.mem_append, not_or]
    exact ⟨⟨i3, h3⟩, by decide⟩

/-- C121, violated: a session that is saved with `:save` cannot be loaded with `:load`: its `main`
comes back as a definition, and every program of the session has two functions `main`. -/
theorem save_load_violated (E : Env) {h d : List Str} {m l : Str} (hp : Parts h d m)
    (hm : m.length < 1023) (h0 : m ≠ []) (hb : Balanced m) (hd : Definition l) :
    loadLines (saveText h) = d ++ ["fn main() {".toList, m, "}".toList] ∧
      ∃ post, program E [] (loadLines (saveText h)) l =
        .ok (d.flatMap (fun l => l ++ ['\n']) ++ "fn main() {\n".toList ++ m ++ "\n}\n".toList ++
          l ++ "\n\nfn main() {".toList ++ post) := by
  obtain ⟨s1, s2, s3, s4⟩ := hp.session
  obtain ⟨g1, g2, -⟩ := session_code s1
  have hload : loadLines (saveText h) = d ++ ["fn main() {".toList, m, "}".toList] := by
    unfold saveText
    rw [g1, g2]
    have e : d.flatMap (fun l => l ++ ['\n']) ++ ['\n'] ++ "\nfn main() {\n".toList ++ m ++
        "\n}\n".toList = d.flatMap (fun l => l ++ ['\n']) ++ ('\n' :: '\n' ::
          ("fn main() {".toList ++ '\n' :: (m ++ '\n' :: ("}".toList ++ '\n' :: [])))) := by
      simp
    rw [e, load_flat d s2, loadLines_blank, loadLines_blank,
      loadLines_line _ _ (by decide) (by decide) (by decide), loadLines_line _ _ s3 hm h0,
      loadLines_line _ _ (by decide) (by decide) (by decide), loadLines_nil]
  refine ⟨hload, ?_⟩
  have hdS : ∀ d : List Str, (∀ l ∈ d, Definition l ∧ Balanced l) →
      Session d (d.flatMap (fun l => l ++ ['\n'])) [] := by
    intro d
    induction d using snocInd with
    | nil => intro _; exact .nil
    | snoc d l ih =>
      intro hd
      rw [List.flatMap_append, List.flatMap_singleton, ← List.append_assoc]
      exact .defn (ih (fun x hx => hd x (by simp [hx]))) (hd l (by simp)).1 (hd l (by simp)).2
  obtain ⟨c1, c2, c3⟩ := session_code (hdS d s4)
  have hcode : getCode (d ++ ["fn main() {".toList, m, "}".toList] ++ [l]) =
      ⟨d.flatMap (fun l => l ++ ['\n']) ++ "fn main() {\n".toList ++ m ++ "\n}\n".toList ++ l ++
        ['\n'], [], rawDepth l, true⟩ := by
    have e : d ++ ["fn main() {".toList, m, "}".toList] ++ [l] =
        (((d ++ ["fn main() {".toList]) ++ [m]) ++ ["}".toList]) ++ [l] := by simp
    rw [e, getCode_snoc, getCode_snoc, getCode_snoc, getCode_snoc]
    generalize getCode d = c at c1 c2 c3
    obtain ⟨cg, cm, cd, ci⟩ := c
    simp only at c1 c2 c3
    subst c1 c2 c3
    have k1 : codeStep ⟨d.flatMap (fun l => l ++ ['\n']), [], 0, ci⟩ "fn main() {".toList =
        ⟨d.flatMap (fun l => l ++ ['\n']) ++ "fn main() {".toList ++ ['\n'], [], 1, true⟩ := by
      have : isHeader "fn main() {".toList = true := by decide +kernel
      have r : rawDepth "fn main() {".toList = 1 := by decide +kernel
      unfold codeStep
      simp only [if_true, this, r]
      rfl
    rw [k1]
    have k2 : ∀ (g : Str) (x : Int) (t : Str), x ≠ 0 → codeStep ⟨g, [], x, true⟩ t =
        ⟨g ++ t ++ ['\n'], [], x + rawDepth t, true⟩ := by
      intro g x t hx
      unfold codeStep
      simp only [if_neg hx, if_true]
    rw [k2 _ _ _ (by decide), rawDepth_balanced hb, k2 _ _ _ (by decide)]
    have r : rawDepth "}".toList = -1 := by decide
    rw [r]
    unfold codeStep
    have z : (1 : Int) + 0 + -1 = 0 := by decide
    simp only [z, if_true, isHeader_of_definition hd]
    simp
  rw [hload]
  refine ⟨" _z_suppress_stdout(); ".toList ++ restore ++ " }".toList, ?_⟩
  unfold program
  rw [hcode]
  simp only [isHeader_of_definition hd, if_true, Res.ok_bind, List.append_nil]
  have hmo : mainOpen = "\nfn main() {".toList ++ " _z_suppress_stdout(); ".toList := by
    decide +kernel
  rw [if_pos]
  · rw [hmo]; simp
  · simp only [List.length_append, mainOpen_length, restore_length, List.length_nil]
    have : (" }".toList).length = 2 := by decide
    rw [this]
    omega

/-! ## C122: commands, and the end of the input -/

theorem trimEnd_last (l : Str) {c : Char} (h : ¬ (c = ' ' ∨ c = '\t')) :
    trimEnd (l ++ [c]) = l ++ [c] := by
  unfold trimEnd
  rw [List.reverse_append, List.reverse_singleton]
  rw [show [c] ++ l.reverse = c :: l.reverse from rfl, skipBlank_self h]
  simp

/-- A command as it reaches the branches: `line` hands it to `command` without its newline. -/
theorem line_command (E : Env) {l : Str} {c : Char} (hl : (l ++ [c]).length ≤ 1022)
    (h : ¬ (c = ' ' ∨ c = '\t')) (hc : (l ++ [c]).head? = some ':') {s s' : St} (hb : s.buf = none)
    (hg : command E (l ++ [c]) s = .ok (.go s')) : line E (some (l ++ [c])) s = .ok (.go s') := by
  unfold line
  simp only [List.take_of_length_le hl, trimEnd_last l h]
  have e : ¬ (l ++ [c] = "exit".toList ∨ l ++ [c] = "quit".toList) := by
    rintro (h | h) <;> rw [h] at hc <;> exact absurd hc (by decide)
  rw [if_pos hb, if_neg e, if_neg (by rw [hc]; decide), if_pos hc, hg]
  rfl

theorem digits_value (ds : List (Fin 10)) (n : Nat) :
    digits (number ds) n = ds.foldl (fun n d => n * 10 + d.val) n := by
  induction ds generalizing n with
  | nil => rfl
  | cons d ds ih =>
    have h : ∀ d : Fin 10, isDigit (Char.ofNat (48 + d.val)) = true ∧
        (Char.ofNat (48 + d.val)).toNat - 48 = d.val := by decide +kernel
    show digits (Char.ofNat (48 + d.val) :: number ds) n = _
    rw [digits, if_pos (h d).1, (h d).2, ih]
    rfl

theorem atoi_value (ds : List (Fin 10)) : atoi (number ds) = (value ds : Nat) := by
  cases ds with
  | nil => rfl
  | cons d ds =>
    have h : ∀ d : Fin 10, isSpace (Char.ofNat (48 + d.val)) = false ∧
        Char.ofNat (48 + d.val) ≠ '-' ∧ Char.ofNat (48 + d.val) ≠ '+' := by decide +kernel
    have e : number (d :: ds) = Char.ofNat (48 + d.val) :: number ds := rfl
    rw [e, atoi, if_neg (by rw [(h d).1]; simp), if_neg (h d).2.1, if_neg (h d).2.2, ← e,
      digits_value]
    rfl

theorem number_last {ds : List (Fin 10)} (h0 : ds ≠ []) :
    ∃ p c, number ds = p ++ [c] ∧ ¬ (c = ' ' ∨ c = '\t') := by
  have h : ∀ d : Fin 10, ¬ (Char.ofNat (48 + d.val) = ' ' ∨ Char.ofNat (48 + d.val) = '\t') := by
    decide +kernel
  refine ⟨number ds.dropLast, Char.ofNat (48 + (ds.getLast h0).val), ?_, h _⟩
  conv => lhs; rw [← List.dropLast_concat_getLast h0]
  simp [number]

/-- C122: `:delete n` takes the `n`-th entry, counted from one as `:history` counts, out of the
session, and no other; a number that is none of an entry changes nothing. -/
theorem delete_command (E : Env) (s : St) (hb : s.buf = none) (hl : s.live = true)
    {ds : List (Fin 10)} (h0 : ds ≠ []) (hn : ds.length ≤ 1000) :
    (∀ a e b, s.hist = a ++ e :: b → value ds = a.length + 1 →
      line E (some (":delete ".toList ++ number ds)) s =
        .ok (.go { s with hist := a ++ b })) ∧
      (value ds = 0 ∨ s.hist.length < value ds →
        line E (some (":delete ".toList ++ number ds)) s = .ok (.go s)) := by
  obtain ⟨p, c, hpc, hc⟩ := number_last h0
  have hlen : (":delete ".toList ++ number ds).length ≤ 1022 := by
    have : (":delete ".toList).length = 8 := by decide
    rw [List.length_append, this]
    simp only [number, List.length_map]
    omega
  have hcmd : ∀ s', deleteCmd (number ds) s = .ok s' →
      line E (some (":delete ".toList ++ number ds)) s = .ok (.go s') := by
    intro s' hd
    have hg : command E (":delete ".toList ++ number ds) s = .ok (.go s') := by
      unfold command
      simp [hd]
    rw [hpc, ← List.append_assoc] at hlen hg ⊢
    exact line_command E hlen hc (by simp) hb hg
  constructor
  · intro a e b hh hv
    apply hcmd
    unfold deleteCmd
    have hi : (0 : Int) ≤ atoi (number ds) - 1 ∧ atoi (number ds) - 1 < s.hist.length := by
      rw [atoi_value, hv, hh]
      simp only [List.length_append, List.length_cons]
      omega
    simp only
    rw [if_pos hi]
    have : (atoi (number ds) - 1).toNat = a.length := by rw [atoi_value, hv]; omega
    rw [this]
    unfold reads
    rw [if_pos (.inl hl), hh]
    simp [List.eraseIdx_append_of_length_le (Nat.le_refl _)]
  · intro hv
    apply hcmd
    unfold deleteCmd
    have hi : ¬ ((0 : Int) ≤ atoi (number ds) - 1 ∧ atoi (number ds) - 1 < s.hist.length) := by
      rw [atoi_value]
      omega
    simp only
    rw [if_neg hi]

/-- C122: `:undo` takes the last entry away, `:reset` all of them. -/
theorem undo_reset (E : Env) (s : St) (hb : s.buf = none) (hl : s.live = true) :
    (∀ a e, s.hist = a ++ [e] → line E (some ":undo".toList) s = .ok (.go { s with hist := a })) ∧
      line E (some ":reset".toList) s = .ok (.go { s with hist := [] }) := by
  constructor
  · intro a e hh
    have hg : command E (":und".toList ++ ['o']) s = .ok (.go { s with hist := a }) := by
      unfold command
      simp [reads, hl, hh]
    exact line_command E (l := ":und".toList) (c := 'o') (by decide) (by decide) (by decide) hb hg
  · have hg : command E (":rese".toList ++ ['t']) s = .ok (.go { s with hist := [] }) := by
      unfold command
      simp [reads, hl]
    exact line_command E (l := ":rese".toList) (c := 't') (by decide) (by decide) (by decide) hb hg

/-- C122, violated: once an entry has been run, `:undo` and `:reset` give back memory that has been
given back. -/
theorem undo_after_entry_violated (E : Env) (s : St) (hb : s.buf = none) (hl : s.live = false)
    (hh : s.hist ≠ []) :
    line E (some ":undo".toList) s = .ub ∧ line E (some ":reset".toList) s = .ub ∧
      line E (some ":history".toList) s = .ub := by
  have e : ∀ x, reads s x = .ub := by
    intro x
    unfold reads
    rw [if_neg]
    rintro (h | h)
    · rw [hl] at h; exact absurd h (by simp)
    · exact hh h
  have go : ∀ (l : Str), (l.take 1022 = l ∧ trimEnd l = l ∧ l.head? = some ':') →
      command E l s = .ub → line E (some l) s = .ub := by
    rintro l ⟨h1, h2, h3⟩ hc
    unfold line
    simp only [h1, h2]
    have e : ¬ (l = "exit".toList ∨ l = "quit".toList) := by
      rintro (h | h) <;> rw [h] at h3 <;> exact absurd h3 (by decide)
    rw [if_pos hb, if_neg e, if_neg (by rw [h3]; decide), if_pos h3, hc]
    rfl
  refine ⟨go _ (by decide +kernel) ?_, go _ (by decide +kernel) ?_, go _ (by decide +kernel) ?_⟩ <;>
    (unfold command; simp [e, prefixes, lookers])

/-- C122, violated: a command that is not known is not refused but run as code. -/
theorem unknown_command_violated (E : Env) {w : Str} {k c : Char} (hw : w = ':' :: k :: (w.drop 2))
    (hk : k ∉ "hcdrquewlsitvf".toList) (hl : w.length ≤ 1022) (hc : w.getLast? = some c)
    (hc' : ¬ (c = ' ' ∨ c = '\t')) {s : St} (hb : s.buf = none) :
    line E (some w) s = (do .ok (.go (← codeLine E (w ++ ['\n']) s))) := by
  have ht : trimEnd w = w := by
    obtain ⟨l, hl⟩ : ∃ l, w = l ++ [c] := by
      rw [List.getLast?_eq_some_iff] at hc
      exact hc
    rw [hl]; exact trimEnd_last l hc'
  have hhead : w.head? = some ':' := by rw [hw]; rfl
  have hcode : command E w s = .ok .code := by
    rw [hw]
    generalize w.drop 2 = r
    have hk' : k ≠ 'h' ∧ k ≠ 'c' ∧ k ≠ 'd' ∧ k ≠ 'r' ∧ k ≠ 'q' ∧ k ≠ 'u' ∧ k ≠ 'e' ∧ k ≠ 'w' ∧
        k ≠ 'l' ∧ k ≠ 's' ∧ k ≠ 'i' ∧ k ≠ 't' ∧ k ≠ 'v' ∧ k ≠ 'f' := by
      simpa using hk
    obtain ⟨k1, k2, k3, k4, k5, k6, k7, k8, k9, k10, k11, k12, k13, k14⟩ := hk'
    unfold command
    simp [prefixes, lookers, k1, k2, k3, k4, k5, k6, k7, k8, k9, k10, k11, k13, k14,
      k2.symm, k10.symm, k12.symm]
  unfold line
  simp only [List.take_of_length_le hl, ht]
  have e : ¬ (w = "exit".toList ∨ w = "quit".toList) := by
    rintro (h | h) <;> rw [h] at hhead <;> exact absurd hhead (by decide)
  rw [if_pos hb, if_neg e, if_neg (by rw [hhead]; decide), if_pos hhead, hcode]
  rfl

/-- C122, violated: `:edit` says that it runs what comes back from the editor; it puts it behind the
history, runs nothing, and leaves the entry that was to be edited in its place. -/
theorem edit_violated (E : Env) (s : St) (hb : s.buf = none) (hl : s.live = true) {a : List Str}
    {e r : Str} (hh : s.hist = a ++ [e]) (hE : E.edit e = some r) (hr : chomp r ≠ []) :
    line E (some ":edit".toList) s = .ok (.go { s with hist := a ++ [e] ++ [chomp r] }) := by
  have hi : (0 : Int) ≤ (a ++ [e]).length - 1 ∧
      ((a ++ [e]).length : Int) - 1 < (a ++ [e]).length := by
    simp only [List.length_append, List.length_singleton]; omega
  have hg : command E (":edi".toList ++ ['t']) s =
      .ok (.go { s with hist := a ++ [e] ++ [chomp r] }) := by
    have he : editCmd E (":edi".toList ++ ['t']) s =
        .ok { s with hist := a ++ [e] ++ [chomp r] } := by
      unfold editCmd
      rw [if_neg (by rw [hh]; simp)]
      have n : ¬ (":edi".toList ++ ['t']).length > 6 := by decide
      simp only [if_neg n, hh]
      rw [if_pos hi]
      have : ((((a ++ [e]).length : Int) - 1).toNat) = a.length := by
        simp only [List.length_append, List.length_singleton]; omega
      rw [this]
      have : (a ++ [e]).getD a.length [] = e := by simp
      rw [this]
      simp [reads, hl, editPush, hE, hr, push, hh]
    unfold command
    simp only [he]
    simp
  exact line_command E (l := ":edi".toList) (c := 't') (by decide) (by decide) (by decide) hb hg

/-- C122, violated: the session does not end with its input.  The line editor hands out empty lines,
and the loop goes round for ever. -/
theorem end_of_input_violated (E : Env) (n : Nat) (s : St) (hb : s.buf = none)
    (h0 : s.brace = 0 ∧ s.paren = 0) : rounds E n s [] = .ok (.go s, []) := by
  have hz : s.brace.toNat = 0 := by rw [h0.1]; rfl
  have he : ({ s with brace := 0, paren := 0 } : St) = s := by
    obtain ⟨a, b⟩ := h0
    cases s
    simp only at a b
    subst a b
    rfl
  have hline : line E (some []) s = .ok (.go s) := by
    unfold line
    have e0 : trimEnd (List.take 1022 []) = [] := by rw [List.take_nil]; rfl
    simp only [e0]
    rw [if_pos hb, if_neg (by decide), if_neg (by simp), if_neg (by simp)]
    unfold codeLine
    rw [h0.1, h0.2]
    have : scanLine 0 0 (List.take 1022 [] ++ ['\n']) = ⟨false, false, 0, 0⟩ := by
      rw [List.take_nil]; decide
    rw [this]
    simp [he]
  have hround : round E s [] = .ok (.go s, []) := by
    unfold round
    rw [hz, LineEdit.end_of_input_is_a_line]
    simp only [Nat.mul_zero, List.replicate_zero, Res.ok_bind, hline]
  induction n with
  | zero => rfl
  | succ n ih =>
    rw [rounds, hround]
    exact ih

/-- C122: `exit`, `quit` and `:quit` end the session, and change nothing. -/
theorem quit_commands (E : Env) (s : St) (hb : s.buf = none) :
    line E (some "exit".toList) s = .ok (.quit s) ∧ line E (some "quit".toList) s = .ok (.quit s) ∧
      line E (some ":quit".toList) s = .ok (.quit s) := by
  have h1 : trimEnd (List.take 1022 "exit".toList) = "exit".toList := by decide +kernel
  have h2 : trimEnd (List.take 1022 "quit".toList) = "quit".toList := by decide +kernel
  have h3 : trimEnd (List.take 1022 ":quit".toList) = ":quit".toList := by decide +kernel
  have hc : command E ":quit".toList s = .ok .quit := by
    unfold command
    simp
  refine ⟨?_, ?_, ?_⟩ <;> unfold line
  · simp only [h1]; rw [if_pos hb, if_pos (.inl (by trivial))]
  · simp only [h2]; rw [if_pos hb, if_pos (.inr (by trivial))]
  · simp only [h3]
    rw [if_pos hb, if_neg (by decide), if_neg (by decide), if_pos (by decide), hc]
    rfl

/-- C122: Ctrl-C and an empty line do nothing to a session that has no open line. -/
theorem empty_line (E : Env) (s : St) (hb : s.buf = none) (h0 : s.brace = 0 ∧ s.paren = 0) :
    rounds E 1 s [] = .ok (.go s, []) := end_of_input_violated E 1 s hb h0

/-! ## The hypotheses can be met -/

theorem statement_of_head {l : Str} (h : isHeader l = false) : Statement l := by
  intro b w r h1 h2 h3
  have := (isHeader_iff l).mpr ⟨b, w, r, h1, h2, h3⟩
  rw [h] at this
  exact absurd this (by simp)

theorem ex_stmt : Statement "println \"{f(1)}\";".toList :=
  statement_of_head (by decide +kernel)

theorem ex_defn : Definition "fn f(x: int) -> int { return x; }".toList :=
  ⟨[], "fn".toList, " f(x: int) -> int { return x; }".toList, by decide +kernel, by simp,
    by decide +kernel, by
      intro c hc
      have : c = ' ' := by
        have h : (" f(x: int) -> int { return x; }".toList).head? = some ' ' := by decide +kernel
        rw [h] at hc
        exact (Option.some.inj hc).symm
      subst this
      decide⟩

/-- A session of a definition and a statement. -/
theorem ex_session : Session
    ["fn f(x: int) -> int { return x; }".toList, "println \"{f(1)}\";".toList]
    "fn f(x: int) -> int { return x; }\n".toList "println \"{f(1)}\"; ".toList := by
  have := Session.stmt (.defn .nil ex_defn (by unfold Balanced; decide +kernel)) ex_stmt
    (by unfold Balanced; decide +kernel)
  have e1 : [] ++ "fn f(x: int) -> int { return x; }".toList ++ ['\n'] =
      "fn f(x: int) -> int { return x; }\n".toList := by decide +kernel
  have e2 : [] ++ "println \"{f(1)}\";".toList ++ [' '] =
      "println \"{f(1)}\"; ".toList := by decide +kernel
  rw [e1, e2] at this
  exact this

theorem not_words {t : Str} (h : t.take 4 ≠ "exit".toList ∧ t.take 4 ≠ "quit".toList) (b : Str) :
    t ≠ "exit".toList ++ b ∧ t ≠ "quit".toList ++ b := by
  constructor
  · rintro rfl
    exact h.1 (List.take_left' (by decide))
  · rintro rfl
    exact h.2 (List.take_left' (by decide))

/-- An entry with a brace in a string. -/
theorem ex_entry : Entry "f(1, \"a{\\\"\");".toList where
  pieces := ⟨[.code "f(1, ".toList, .str "a{\\\"".toList, .code ");".toList], by decide +kernel, by
    intro q hq
    simp only [List.mem_cons, List.not_mem_nil, or_false] at hq
    rcases hq with rfl | rfl | rfl
    · exact ⟨by decide, by decide⟩
    · have h : "a{\\\"".toList = ['a', '{', '\\', '"'] := by decide
      show Body "a{\\\"".toList
      rw [h]
      exact .char (by decide) (by decide) (.char (by decide) (by decide) (.esc .nil))
    · exact ⟨by decide, by decide⟩, by
    unfold Open
    decide +kernel⟩
  some := by decide
  short := by decide +kernel
  shell := by decide
  colon := by decide
  exit b _ := not_words (by decide) b

/-- Entering it, and then another line. -/
example (E : Env) : rounds E 2 (St.new []) ("f(1, \"a{\\\"\");".toList ++ '\r' ::
    ("f(1, \"a{\\\"\");".toList ++ '\r' :: [])) = .ub := by
  obtain ⟨p, hp⟩ := program_fits E [] [] "f(1, \"a{\\\"\");".toList (by decide +kernel) (by simp)
    (by decide)
  exact second_entry_violated E (by intro l hl; simp at hl) ex_entry ex_entry hp (by decide +kernel)
    (by decide +kernel) []

/-- A function begun on one line. -/
example (E : Env) : ∃ s, line E (some "fn f() {".toList) (St.new []) = .ok (.go s) ∧
    s.buf ≠ none ∧ s.live = true ∧ s.ran = [] := by
  have := open_line E [.code "fn f() {".toList] (by
    intro q hq
    rw [List.mem_singleton.mp hq]
    exact ⟨by decide, by decide⟩) (by unfold Open; decide +kernel) (by decide +kernel)
    (by decide +kernel) (by decide +kernel) (s := St.new []) rfl ⟨rfl, rfl⟩
  exact ⟨_, this, by simp, rfl, rfl⟩

example : (getCode ["user = 5;".toList]).main = [] :=
  (prefix_violated .nil (b := []) (w := "use".toList) (r := "r = 5;".toList) (by intro c hc; simp at hc)
    (by decide +kernel)).2

example : (getCode ["puts(\"{\");".toList, "struct S { x: int }".toList]).glob = [] :=
  (brace_in_string_violated (d := "struct S { x: int }".toList) .nil
    (statement_of_head (l := "puts(\"{\");".toList) (by decide +kernel)) (by decide +kernel)).1

example (E : Env) (hx : E.isExpr "counter;".toList = true)
    (hn : E.isVoid (probe [] "counter = 5".toList) = false) :
    lastText E [] "counter = 5".toList = "println \"{counter = 5}\";".toList :=
  seven_violated E [] (v := "counter".toList) (by decide) hx " = 5".toList hn

example : loadLines (saveLines ["fn f(\nx: int) {}".toList]) = ["fn f(".toList, "x: int) {}".toList] :=
  two_lines_violated (a := "fn f(".toList) (b := "x: int) {}".toList) (by decide +kernel)
    (by decide +kernel)

example (E : Env) : line E (some ":delete 2".toList) (St.new ["a".toList, "b".toList]) =
    .ok (.go (St.new ["a".toList])) :=
  (delete_command E (St.new ["a".toList, "b".toList]) rfl rfl (ds := [2]) (by decide)
    (by decide)).1 ["a".toList] "b".toList [] rfl rfl

example (E : Env) (s : St) (hb : s.buf = none) : line E (some ":print x".toList) s =
    (do .ok (.go (← codeLine E ":print x\n".toList s))) :=
  unknown_command_violated E (k := 'p') (c := 'x') (by decide +kernel) (by decide +kernel)
    (by decide +kernel) (by decide +kernel) (by decide) hb

/-! ## Further commands -/

theorem atoi_blanks (n : Nat) (t : Str) : atoi (List.replicate n ' ' ++ t) = atoi t := by
  induction n with
  | zero => rfl
  | succ n ih => rw [List.replicate_succ, List.cons_append, atoi, if_pos (by decide), ih]

/-- C122: `:watch` keeps an expression behind the ones there are, as long as there are less than 16. -/
theorem watch_command (E : Env) (s : St) (hb : s.buf = none) (p : Str) (c : Char)
    (hc : ¬ (c = ' ' ∨ c = '\t')) (hp : (p ++ [c]).head? ≠ some ' ') (hl : (p ++ [c]).length ≤ 1000) :
    line E (some (":watch ".toList ++ (p ++ [c]))) s =
      .ok (.go (if s.watches.length < 16 then { s with watches := s.watches ++ [p ++ [c]] } else s)) := by
  have hlen : (":watch ".toList ++ p ++ [c]).length ≤ 1022 := by
    have : (":watch ".toList).length = 7 := by decide
    rw [List.append_assoc, List.length_append, this]
    omega
  have hg : command E (":watch ".toList ++ p ++ [c]) s =
      .ok (.go (if s.watches.length < 16 then { s with watches := s.watches ++ [p ++ [c]] } else s)) := by
    have hd : (p ++ [c]).dropWhile (· = ' ') = p ++ [c] := by
      cases hpc : p ++ [c] with
      | nil => rfl
      | cons x r =>
        rw [hpc] at hp
        rw [List.dropWhile_cons, if_neg]
        intro e
        apply hp
        simpa using e
    have hw : watchCmd (p ++ [c]) s =
        if s.watches.length < 16 then { s with watches := s.watches ++ [p ++ [c]] } else s := by
      unfold watchCmd
      rw [hd]
      simp
    rw [List.append_assoc, ← hw]
    unfold command
    simp
  rw [← List.append_assoc]
  exact line_command E hlen hc (by simp) hb hg

/-- C122: `:unwatch n` takes away the n-th expression. -/
theorem unwatch_command (E : Env) (s : St) (hb : s.buf = none) {ds : List (Fin 10)} (h0 : ds ≠ [])
    (hn : ds.length ≤ 900) (m : Nat) (hm : m ≤ 100) :
    (∀ a e b, s.watches = a ++ e :: b → value ds = a.length + 1 →
      line E (some (":unwatch ".toList ++ (List.replicate m ' ' ++ number ds))) s =
        .ok (.go { s with watches := a ++ b })) ∧
      (value ds = 0 ∨ s.watches.length < value ds →
        line E (some (":unwatch ".toList ++ (List.replicate m ' ' ++ number ds))) s = .ok (.go s)) := by
  obtain ⟨p, c, hpc, hc⟩ := number_last h0
  have hlen : (":unwatch ".toList ++ (List.replicate m ' ' ++ number ds)).length ≤ 1022 := by
    have : (":unwatch ".toList).length = 9 := by decide
    rw [List.length_append, this, List.length_append, List.length_replicate]
    simp only [number, List.length_map]
    omega
  have hcmd : ∀ s', unwatchCmd (List.replicate m ' ' ++ number ds) s = s' →
      line E (some (":unwatch ".toList ++ (List.replicate m ' ' ++ number ds))) s = .ok (.go s') := by
    intro s' hd
    have hg : command E (":unwatch ".toList ++ (List.replicate m ' ' ++ number ds)) s = .ok (.go s') := by
      unfold command
      simp [hd]
    rw [hpc, ← List.append_assoc, ← List.append_assoc] at hlen hg ⊢
    exact line_command E hlen hc (by simp) hb hg
  constructor
  · intro a e b hh hv
    apply hcmd
    unfold unwatchCmd
    rw [atoi_blanks]
    have hi : (0 : Int) ≤ atoi (number ds) - 1 ∧ atoi (number ds) - 1 < s.watches.length := by
      rw [atoi_value, hv, hh]
      simp only [List.length_append, List.length_cons]
      omega
    simp only
    rw [if_pos hi]
    have : (atoi (number ds) - 1).toNat = a.length := by rw [atoi_value, hv]; omega
    rw [this, hh]
    simp [List.eraseIdx_append_of_length_le (Nat.le_refl _)]
  · intro hv
    apply hcmd
    unfold unwatchCmd
    rw [atoi_blanks]
    have hi : ¬ ((0 : Int) ≤ atoi (number ds) - 1 ∧ atoi (number ds) - 1 < s.watches.length) := by
      rw [atoi_value]
      omega
    simp only
    rw [if_neg hi]

/-- C122: `:load` puts the lines of a file behind the entries there are. -/
theorem load_command (E : Env) (s : St) (hb : s.buf = none) (hl : s.live = true) (p : Str) (c : Char)
    (hc : ¬ (c = ' ' ∨ c = '\t')) (hn : (p ++ [c]).length ≤ 1000) {t : Str}
    (ht : E.file (p ++ [c]) = some t) :
    line E (some (":load ".toList ++ (p ++ [c]))) s = .ok (.go { s with hist := s.hist ++ loadLines t }) := by
  have hlen : (":load ".toList ++ p ++ [c]).length ≤ 1022 := by
    have : (":load ".toList).length = 6 := by decide
    rw [List.append_assoc, List.length_append, this]
    omega
  have hg : command E (":load ".toList ++ p ++ [c]) s =
      .ok (.go { s with hist := s.hist ++ loadLines t }) := by
    have hw : loadCmd E (p ++ [c]) s = .ok { s with hist := s.hist ++ loadLines t } := by
      unfold loadCmd
      rw [ht]
      simp only
      split
      · rename_i he
        rw [he, List.append_nil]
      · rfl
    rw [List.append_assoc]
    unfold command
    simp [hw]
  rw [← List.append_assoc]
  exact line_command E hlen hc (by simp) hb hg

/-- C122: a command of the shell leaves the session as it is. -/
theorem shell_command (E : Env) (s : St) (hb : s.buf = none) (p : Str) (c : Char)
    (hc : ¬ (c = ' ' ∨ c = '\t')) (hn : (p ++ [c]).length ≤ 1000) :
    line E (some ('!' :: (p ++ [c]))) s = .ok (.go s) := by
  unfold line
  have h1 : ('!' :: (p ++ [c])).take 1022 = '!' :: (p ++ [c]) :=
    List.take_of_length_le (by rw [List.length_cons]; omega)
  have h2 : trimEnd ('!' :: (p ++ [c])) = '!' :: (p ++ [c]) := trimEnd_last ('!' :: p) hc
  simp only
  rw [if_pos hb, h1, h2, if_neg (by simp), if_pos (by trivial)]

/-- C122: `exit`, `quit`, `:quit` and the end of the input end the session, as it is. -/
theorem ends (E : Env) (s : St) (hb : s.buf = none) :
    line E (some "exit".toList) s = .ok (.quit s) ∧ line E (some "quit".toList) s = .ok (.quit s) ∧
      line E (some ":quit".toList) s = .ok (.quit s) ∧ line E none s = .ok (.quit s) := by
  refine ⟨?_, ?_, ?_, rfl⟩
  · unfold line
    simp only
    rw [if_pos hb, if_pos (by left; decide +kernel)]
  · unfold line
    simp only
    rw [if_pos hb, if_pos (by right; decide +kernel)]
  · unfold line
    simp only
    rw [if_pos hb, if_neg (by decide +kernel), if_neg (by decide +kernel), if_pos (by decide +kernel)]
    have h : trimEnd (":quit".toList.take 1022) = ":quit".toList := by decide +kernel
    rw [h]
    unfold command
    simp only
    rw [if_neg (by decide +kernel), if_neg (by decide +kernel), if_pos (by trivial)]
    rfl

end Verif.Repl
