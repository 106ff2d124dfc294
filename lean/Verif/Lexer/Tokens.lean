import Verif.Lexer.Props

/-! # Properties of single tokens (C45, C50): words, operators, string literals -/

namespace Verif.Lexer
open Verif Verif.Str

namespace Spec

/-- ASCII bytes of a spelling -/
def bytes (cs : List Char) : List Byte := cs.map fun c => UInt8.ofNat c.toNat

/-- reserved words of the lexer and their token kinds -/
def words : List (List Byte × Kind) :=
  [(bytes ['t','e','s','t'], .test), (bytes ['a','s','s','e','r','t'], .assert),
   (bytes ['s','i','z','e','o','f'], .sizeof), (bytes ['d','e','f','e','r'], .defer),
   (bytes ['d','e','f'], .deff), (bytes ['t','r','a','i','t'], .trait),
   (bytes ['i','m','p','l'], .impl), (bytes ['a','u','t','o','f','r','e','e'], .autofree),
   (bytes ['a','l','i','a','s'], .alias), (bytes ['u','s','e'], .use),
   (bytes ['c','o','m','p','t','i','m','e'], .comptime), (bytes ['u','n','i','o','n'], .union),
   (bytes ['a','s','m'], .asm), (bytes ['v','o','l','a','t','i','l','e'], .volatile),
   (bytes ['a','s','y','n','c'], .async), (bytes ['a','w','a','i','t'], .await),
   (bytes ['a','n','d'], .and), (bytes ['o','r'], .or), (bytes ['o','p','a','q','u','e'], .opaque)]

/-- an identifier: letter or underscore, then letters, digits, underscores -/
def Word (w : List Byte) : Prop :=
  (∃ c, w.head? = some c ∧ (c = 95 ∨ (65 ≤ c ∧ c ≤ 90) ∨ (97 ≤ c ∧ c ≤ 122))) ∧
  ∀ c ∈ w, c = 95 ∨ (48 ≤ c ∧ c ≤ 57) ∨ (65 ≤ c ∧ c ≤ 90) ∨ (97 ≤ c ∧ c ≤ 122)

/-- not a byte that continues an identifier -/
def Ends (rest : List Byte) : Prop := ∀ c, rest.head? = some c →
  ¬ (c = 95 ∨ (48 ≤ c ∧ c ≤ 57) ∨ (65 ≤ c ∧ c ≤ 90) ∨ (97 ≤ c ∧ c ≤ 122))

/-- `k` is the kind of the word `w`: reserved words have their own, all others are identifiers -/
def IsKind (w : List Byte) (k : Kind) : Prop :=
  (w, k) ∈ words ∨ ((∀ k', (w, k') ∉ words) ∧ k = .ident)

/-- operators and punctuation of more than one byte, or of one byte with a kind of its own -/
def ops : List (List Byte × Kind) :=
  [(bytes ['?','?','='], .qqEq), (bytes ['.','.','.'], .ellipsis), (bytes ['.','.','='], .dotdotEq),
   (bytes ['.','.','<'], .dotdotLt), (bytes ['<','<','='], .op), (bytes ['>','>','='], .op),
   (bytes ['?','.'], .qDot), (bytes ['?','?'], .qq), (bytes ['|','>'], .pipe),
   (bytes [':',':'], .dcolon), (bytes ['.','.'], .dotdot), (bytes ['-','>'], .arrow),
   (bytes ['=','>'], .arrow), (bytes ['<','<'], .op), (bytes ['>','>'], .op),
   (bytes ['&','&'], .op), (bytes ['|','|'], .op), (bytes ['+','+'], .op), (bytes ['-','-'], .op),
   (bytes ['=','='], .op), (bytes ['!','='], .op), (bytes ['<','='], .op), (bytes ['>','='], .op),
   (bytes ['+','='], .op), (bytes ['-','='], .op), (bytes ['*','='], .op), (bytes ['/','='], .op),
   (bytes ['%','='], .op), (bytes ['|','='], .op), (bytes ['&','='], .op), (bytes ['^','='], .op),
   (bytes ['?'], .question), (bytes ['('], .lparen), (bytes [')'], .rparen), (bytes ['{'], .lbrace),
   (bytes ['}'], .rbrace), (bytes ['['], .lbracket), (bytes [']'], .rbracket), (bytes ['<'], .langle),
   (bytes ['>'], .rangle), (bytes [','], .comma), (bytes [':'], .colon), (bytes [';'], .semicolon),
   (bytes ['@'], .at)]

/-- the longest spelling of the table at the front of the text; a byte with no entry is an operator
by itself -/
def Longest (s : List Byte) (k : Kind) (n : Nat) : Prop :=
  (∃ e ∈ ops, e.1 <+: s ∧ e.2 = k ∧ e.1.length = n ∧ ∀ e' ∈ ops, e'.1 <+: s → e'.1.length ≤ n) ∨
  ((∀ e ∈ ops, ¬ e.1 <+: s) ∧ k = .op ∧ n = 1)

/-- inside of a string literal: plain bytes and escape pairs -/
inductive Inside : List Byte → Prop
  | nil : Inside []
  | plain (c : Byte) (b : List Byte) : c ≠ 34 → c ≠ 92 → Inside b → Inside (c :: b)
  | pair (c : Byte) (b : List Byte) : Inside b → Inside (92 :: c :: b)

end Spec
open Spec

/-- `lexer_next` where a token starts at the current position -/
theorem next_raw {emit : Bool} {src : List Byte} {f : Nat} {l : Lex} {a : Byte} {r : List Byte}
    (hle : l.pos ≤ src.length) (hs : src.drop l.pos = a :: r) (hsp : isSpace a = false) (h35 : a ≠ 35)
    (h47 : a = 47 → ∀ b, r.head? = some b → b ≠ 47 ∧ b ≠ 42) {k : Kind} {n : Nat}
    (hr : raw (a :: r) = .ok (k, n)) :
    ∃ l', next emit src (f + 1) l = .ok (⟨k, l.pos, n, l.line, l.col⟩, l') ∧ l'.pos = l.pos + n := by
  refine ⟨advance k ((a :: r).take n) n l, ?_, ?_⟩
  · unfold next
    have hsk : skipWs (a :: r) l = (a :: r, l) := by rw [skipWs, if_neg (by simp [hsp])]
    rw [if_neg (by omega), hs, hsk]
    dsimp only
    rw [if_neg (by simp), if_neg (by simpa using h35), if_neg, if_neg, hr]
    · rfl
    · rintro ⟨h1, h2⟩
      exact (h47 (by simpa using h1) 42 (by simpa using h2)).2 rfl
    · rintro ⟨h1, h2⟩
      exact (h47 (by simpa using h1) 47 (by simpa using h2)).1 rfl
  · unfold advance; split <;> rfl

theorem identChar_iff (c : Byte) : identChar c = true ↔
    (c = 95 ∨ (48 ≤ c ∧ c ≤ 57) ∨ (65 ≤ c ∧ c ≤ 90) ∨ (97 ≤ c ∧ c ≤ 122)) := by
  simp only [identChar, isAlpha, isDigit, Bool.or_eq_true, Bool.and_eq_true, decide_eq_true_eq,
    beq_iff_eq]
  constructor
  · rintro ((((h | h)) | h) | h) <;> simp [h]
  · rintro (h | h | h | h) <;> simp [h]

theorem identStart_iff (c : Byte) : identStart c = true ↔
    (c = 95 ∨ (65 ≤ c ∧ c ≤ 90) ∨ (97 ≤ c ∧ c ≤ 122)) := by
  simp only [identStart, isAlpha, Bool.or_eq_true, Bool.and_eq_true, decide_eq_true_eq, beq_iff_eq]
  constructor
  · rintro ((h | h) | h) <;> simp [h]
  · rintro (h | h | h) <;> simp [h]

theorem keyword_some {w : List Byte} {k : Kind} : ∀ ks : List (List Byte × Kind),
    keyword w ks = some k → (w, k) ∈ ks
  | [], h => by cases h
  | (w', t) :: ks, h => by
      rw [keyword] at h
      split at h
      · rename_i hw; cases h; rw [hw.2]; simp
      · exact List.mem_cons_of_mem _ (keyword_some ks h)

theorem keyword_none {w : List Byte} : ∀ ks : List (List Byte × Kind),
    keyword w ks = none → ∀ k, (w, k) ∉ ks
  | [], _, k => by simp
  | (w', t) :: ks, h, k => by
      rw [keyword] at h
      split at h
      · cases h
      · rename_i hw
        simp only [List.mem_cons, Prod.mk.injEq, not_or]
        exact ⟨fun e => hw ⟨by rw [e.1], e.1⟩, keyword_none ks h k⟩

theorem keywords_eq : keywords = words := by decide

/-- C45 (lexer part): a word is a reserved word only if it is that word as a whole; every other
word is one identifier token.  The letters `f` and `r` directly before a quote start a literal. -/
theorem lex_word {emit : Bool} {src w rest : List Byte} {f : Nat} {l : Lex} (hle : l.pos ≤ src.length)
    (hs : src.drop l.pos = w ++ rest) (hw : Word w) (he : Ends rest)
    (hf : w = [102] → rest.head? ≠ some 34)
    (hr : w = [114] → rest.head? ≠ some 34 ∧ rest.head? ≠ some 39) :
    ∃ k l', IsKind w k ∧ next emit src (f + 1) l = .ok (⟨k, l.pos, w.length, l.line, l.col⟩, l') ∧
      l'.pos = l.pos + w.length := by
  obtain ⟨⟨c, hc, hcs⟩, hall⟩ := hw
  obtain ⟨w', rfl⟩ : ∃ w', w = c :: w' := by
    cases w with
    | nil => simp at hc
    | cons x w' => exact ⟨w', by simp at hc; rw [hc]⟩
  have hstart : identStart c = true := (identStart_iff c).2 hcs
  have hspan : span identChar (c :: (w' ++ rest)) = (c :: w').length := by
    rw [← List.cons_append]
    refine span_append _ _ _ (fun x hx => (identChar_iff x).2 (hall x hx)) (fun x hx => ?_)
    have := he x hx
    rw [← identChar_iff] at this
    simpa using this
  have htake : (c :: (w' ++ rest)).take (c :: w').length = c :: w' := by
    rw [← List.cons_append, List.take_left]
  have hnsp : isSpace c = false := by
    have key : ∀ c : Fin 256, identStart (UInt8.ofFin c) = true → isSpace (UInt8.ofFin c) = false ∧
        UInt8.ofFin c ≠ 35 ∧ UInt8.ofFin c ≠ 47 := by decide +kernel
    exact (key c.toFin hstart).1
  have hn35 : c ≠ 35 ∧ c ≠ 47 := by
    have key : ∀ c : Fin 256, identStart (UInt8.ofFin c) = true →
        UInt8.ofFin c ≠ 35 ∧ UInt8.ofFin c ≠ 47 := by decide +kernel
    exact key c.toFin hstart
  have hraw : ∃ k, IsKind (c :: w') k ∧ raw (c :: (w' ++ rest)) = .ok (k, (c :: w').length) := by
    unfold raw
    rw [rd_lt (by simp), Run.ok_bind, List.getElem_cons_zero, if_pos hstart]
    dsimp only
    rw [hspan, htake]
    cases hk : keyword (c :: w') keywords with
    | some k => exact ⟨k, .inl (keywords_eq ▸ keyword_some _ hk), rfl⟩
    | none =>
        refine ⟨.ident, .inr ⟨fun k' => keywords_eq ▸ keyword_none _ hk k', rfl⟩, ?_⟩
        obtain ⟨b, eb, hb⟩ := rd_le (s := c :: (w' ++ rest)) (i := 1) (by simp)
        simp only [eb, Run.ok_bind]
        have hhead : ∀ x : Byte, x ≠ 0 → (c :: w').length = 1 → b = x → w' = [] ∧ rest.head? = some x := by
          intro x hx h1 hbx
          have hw' : w' = [] := by simpa using h1
          subst hw'
          obtain ⟨_, h2⟩ := rd_ne eb (hbx ▸ hx)
          refine ⟨rfl, ?_⟩
          rw [← hbx, List.head?_eq_getElem?]; simpa using h2
        rw [if_neg, if_neg]
        · rfl
        · rintro ⟨h1, rfl, h3 | h3⟩
          · obtain ⟨rfl, h⟩ := hhead _ (by decide) h1 h3; exact (hr rfl).1 h
          · obtain ⟨rfl, h⟩ := hhead _ (by decide) h1 h3; exact (hr rfl).2 h
        · rintro ⟨h1, rfl, h3⟩
          obtain ⟨rfl, h⟩ := hhead _ (by decide) h1 h3; exact hf rfl h
  obtain ⟨k, hk, hraw⟩ := hraw
  obtain ⟨l', h1, h2⟩ := next_raw (emit := emit) (f := f) hle (by rw [hs]; rfl) hnsp hn35.1
    (fun h => absurd h hn35.2) hraw
  exact ⟨k, l', hk, h1, h2⟩

/-- `deferred(` : an identifier although it begins with a reserved word -/
example : Word [100, 101, 102, 101, 114, 114, 101, 100] ∧ Ends [40] ∧
    IsKind [100, 101, 102, 101, 114, 114, 101, 100] .ident ∧ IsKind [100, 101, 102, 101, 114] .defer := by
  refine ⟨⟨⟨100, rfl, by decide⟩, by decide⟩, ?_, .inr ⟨?_, rfl⟩, .inl (by decide)⟩
  · intro c hc; simp at hc; subst hc; decide
  · intro k'
    have : ∀ p ∈ words, p.1 ≠ [100, 101, 102, 101, 114, 114, 101, 100] := by decide
    exact fun h => this _ h rfl

/-! ## operators -/

theorem ops_len : ∀ e ∈ ops, e.1.length ≤ 3 := by decide

/-- every spelling of three bytes -/
theorem ops3 : ∀ e ∈ ops, 2 < e.1.length → e.1 ∈ ([[63, 63, 61], [46, 46, 46], [46, 46, 61],
    [46, 46, 60], [60, 60, 61], [62, 62, 61]] : List (List Byte)) := by decide

/-- every spelling of at least two bytes, by its first two -/
theorem ops2 : ∀ e ∈ ops, 1 < e.1.length → e.1.take 2 ∈ ([[63, 46], [63, 63], [124, 62], [58, 58],
    [46, 46], [45, 62], [61, 62], [60, 60], [62, 62], [38, 38], [124, 124], [43, 43], [45, 45],
    [61, 61], [33, 61], [60, 61], [62, 61], [43, 61], [45, 61], [42, 61], [47, 61], [37, 61],
    [124, 61], [38, 61], [94, 61]] : List (List Byte)) := by decide

/-- every spelling, by its first byte -/
theorem ops1 : ∀ e ∈ ops, e.1 = [e.1.headD 0] → e.1.headD 0 ∈ ([63, 40, 41, 123, 125, 91, 93, 60, 62,
    44, 58, 59, 64] : List Byte) := by decide

theorem ops_pos : ∀ e ∈ ops, 0 < e.1.length := by decide

theorem ops_zero : ∀ e ∈ ops, 0 ∉ e.1 := by decide

theorem take_pre {w s : List Byte} (h : w <+: s) (n : Nat) (hn : n ≤ w.length) :
    w.take n = s.take n := by
  obtain ⟨t, rfl⟩ := h
  rw [List.take_append_of_le_length hn]

/-- the outcome is the longest spelling -/
def OpL (s : List Byte) (x : Run (Kind × Nat)) : Prop := ∃ k n, x = .ok (k, n) ∧ Longest s k n

theorem OpL.ite {s : List Byte} {p : Prop} [Decidable p] {x y : Run (Kind × Nat)}
    (h1 : p → OpL s x) (h2 : ¬ p → OpL s y) : OpL s (if p then x else y) := by
  split
  · exact h1 ‹_›
  · exact h2 ‹_›

theorem OpL.mk3 {s w : List Byte} {k : Kind} (hw : w <+: s) (hl : w.length = 3) (he : (w, k) ∈ ops) :
    OpL s (pure (k, 3)) :=
  ⟨k, 3, rfl, .inl ⟨(w, k), he, hw, rfl, hl, fun e h _ => ops_len e h⟩⟩

theorem OpL.mk2 {s w : List Byte} {k : Kind} (hw : w <+: s) (hl : w.length = 2) (he : (w, k) ∈ ops)
    (h3 : s.take 3 ∉ ([[63, 63, 61], [46, 46, 46], [46, 46, 61], [46, 46, 60], [60, 60, 61],
      [62, 62, 61]] : List (List Byte))) : OpL s (pure (k, 2)) := by
  refine ⟨k, 2, rfl, .inl ⟨(w, k), he, hw, rfl, hl, fun e h hp => ?_⟩⟩
  apply Classical.byContradiction
  intro hc
  have := ops3 e h (by omega)
  rw [← List.take_of_length_le (ops_len e h), take_pre hp 3 (by omega)] at this
  exact h3 this

theorem no2 {s : List Byte} (h2 : s.take 2 ∉ ([[63, 46], [63, 63], [124, 62], [58, 58],
    [46, 46], [45, 62], [61, 62], [60, 60], [62, 62], [38, 38], [124, 124], [43, 43], [45, 45],
    [61, 61], [33, 61], [60, 61], [62, 61], [43, 61], [45, 61], [42, 61], [47, 61], [37, 61],
    [124, 61], [38, 61], [94, 61]] : List (List Byte))) :
    ∀ e ∈ ops, e.1 <+: s → e.1.length ≤ 1 := by
  intro e h hp
  apply Classical.byContradiction
  intro hc
  have := ops2 e h (by omega)
  rw [take_pre hp 2 (by omega)] at this
  exact h2 this

/-- C50: the operator token at a position is the longest operator spelled there -/
theorem operator_longest {s : List Byte} {a : Byte} {t : List Byte} (hs : s = a :: t) (hz : 0 ∉ s) :
    OpL s (operator s) := by
  have h0 : rd s 0 = .ok a := by rw [hs, rd_lt (by simp)]; rfl
  have ha0 : a ≠ 0 := by rintro rfl; exact hz (by simp [hs])
  obtain ⟨b, h1, hb⟩ := rd_le (s := s) (i := 1) (by simp [hs])
  unfold operator
  rw [h0, Run.ok_bind, h1, Run.ok_bind]
  -- the text in terms of a, b, c
  have hst : ∀ x : Byte, x ≠ 0 → b = x → ∃ u, s = a :: x :: u := by
    intro x hx hbx
    obtain ⟨hl, h2⟩ := rd_ne h1 (hbx ▸ hx)
    subst hs
    cases t with
    | nil => simp at hl
    | cons y u => simp at h2; exact ⟨u, by rw [h2, hbx]⟩
  have htake2 : ∀ x y : Byte, y ≠ 0 → s.take 2 = [x, y] → a = x ∧ b = y := by
    intro x y hy h
    subst hs
    cases t with
    | nil => simp at h
    | cons z u =>
        simp at h
        rw [rd_lt (by simp)] at h1
        simp at h1
        exact ⟨h.1, by rw [← h1]; exact h.2⟩
  -- two bytes, and three bytes if the third fits
  have two : ∀ (x y : Byte) (k : Kind), y ≠ 0 → a = x → b = y → ([x, y], k) ∈ ops →
      (∀ u : List Byte, [x, y] ++ u.take 1 ∉ ([[63, 63, 61], [46, 46, 46], [46, 46, 61], [46, 46, 60],
        [60, 60, 61], [62, 62, 61]] : List (List Byte))) → OpL s (pure (k, 2)) := by
    intro x y k hy hax hby he h3
    obtain ⟨u, hu⟩ := hst y hy hby
    rw [hax] at hu
    rw [hu]
    exact OpL.mk2 ⟨u, rfl⟩ rfl he (h3 u)
  have rdc : ∀ (x y : Byte), y ≠ 0 → a = x → b = y → ∃ c u, rd s 2 = .ok c ∧ s = x :: y :: u ∧
      (∀ z, z ≠ 0 → (u.take 1 = [z] ↔ c = z)) := by
    intro x y hy hax hby
    obtain ⟨u, hu⟩ := hst y hy hby
    rw [hax] at hu
    cases u with
    | nil =>
        refine ⟨0, [], by rw [hu]; rfl, hu, ?_⟩
        intro z hz'
        simp only [List.take_nil]
        exact ⟨fun h => by simp at h, fun h => absurd h.symm hz'⟩
    | cons c u =>
        refine ⟨c, c :: u, by rw [hu]; rfl, hu, ?_⟩
        intro z _
        simp
  have three : ∀ (x y z : Byte) (k : Kind) (u : List Byte), s = x :: y :: u → u.take 1 = [z] →
      ([x, y, z], k) ∈ ops → OpL s (pure (k, 3)) := by
    intro x y z k u hu hz' he
    cases u with
    | nil => simp at hz'
    | cons c u =>
        simp at hz'
        subst hz'
        exact OpL.mk3 ⟨u, by rw [hu]; rfl⟩ rfl he
  have two' : ∀ (x y : Byte) (k : Kind) (u : List Byte), s = x :: y :: u → ([x, y], k) ∈ ops →
      ([x, y] ++ u.take 1 ∉ ([[63, 63, 61], [46, 46, 46], [46, 46, 61], [46, 46, 60],
        [60, 60, 61], [62, 62, 61]] : List (List Byte))) → OpL s (pure (k, 2)) := by
    intro x y k u hu he h3
    rw [hu]
    exact OpL.mk2 ⟨u, rfl⟩ rfl he h3
  refine OpL.ite (fun h => two _ _ _ (by decide) h.1 h.2 (by decide) (by simp)) fun n1 => ?_
  refine OpL.ite (fun h => ?_) fun n2 => ?_
  · obtain ⟨c, u, ec, hu, hc⟩ := rdc _ _ (by decide) h.1 h.2
    rw [ec, Run.ok_bind]
    refine OpL.ite (fun h3 => three _ _ _ _ u hu ((hc 61 (by decide)).2 h3) (by decide)) fun h3 => ?_
    rw [← hc 61 (by decide)] at h3
    exact two' _ _ _ u hu (by decide) (by simp [h3])
  refine OpL.ite (fun h => ?_) fun n3 => ?_
  · subst h
    refine ⟨_, _, rfl, .inl ⟨([63], .question), by decide, ⟨t, by rw [hs]; rfl⟩, rfl, rfl, no2 ?_⟩⟩
    simp only [List.mem_cons, List.not_mem_nil, or_false, not_or]
    refine ⟨?_, ?_, ?_⟩
    · intro h; exact n1 ⟨rfl, (htake2 _ _ (by decide) h).2⟩
    · intro h; exact n2 ⟨rfl, (htake2 _ _ (by decide) h).2⟩
    · subst hs
      simp
  refine OpL.ite (fun h => two _ _ _ (by decide) h.1 h.2 (by decide) (by simp)) fun n4 => ?_
  refine OpL.ite (fun h => two _ _ _ (by decide) h.1 h.2 (by decide) (by simp)) fun n5 => ?_
  refine OpL.ite (fun h => ?_) fun n6 => ?_
  · obtain ⟨c, u, ec, hu, hc⟩ := rdc _ _ (by decide) h.1 h.2
    rw [ec, Run.ok_bind]
    refine OpL.ite (fun h3 => three _ _ _ _ u hu ((hc _ (by decide)).2 h3) (by decide)) fun h3 => ?_
    refine OpL.ite (fun h3 => three _ _ _ _ u hu ((hc _ (by decide)).2 h3) (by decide)) fun h4 => ?_
    refine OpL.ite (fun h3 => three _ _ _ _ u hu ((hc _ (by decide)).2 h3) (by decide)) fun h5 => ?_
    rw [← hc _ (by decide)] at h3 h4 h5
    exact two' _ _ _ u hu (by decide) (by simp [h3, h4, h5])
  refine OpL.ite (fun h => ?_) fun n7 => ?_
  · rcases h with h | h
    · exact two _ _ _ (by decide) h.1 h.2 (by decide) (by simp)
    · exact two _ _ _ (by decide) h.1 h.2 (by decide) (by simp)
  refine OpL.ite (fun h => ?_) fun n8 => ?_
  · rcases h with h | h
    · obtain ⟨c, u, ec, hu, hc⟩ := rdc _ _ (by decide) h.1 h.2
      rw [ec, Run.ok_bind]
      refine OpL.ite (fun h3 => three _ _ _ _ u hu ((hc 61 (by decide)).2 h3) (by decide)) fun h3 => ?_
      rw [← hc 61 (by decide)] at h3
      exact two' _ _ _ u hu (by decide) (by simp [h3])
    · obtain ⟨c, u, ec, hu, hc⟩ := rdc _ _ (by decide) h.1 h.2
      rw [ec, Run.ok_bind]
      refine OpL.ite (fun h3 => three _ _ _ _ u hu ((hc 61 (by decide)).2 h3) (by decide)) fun h3 => ?_
      rw [← hc 61 (by decide)] at h3
      exact two' _ _ _ u hu (by decide) (by simp [h3])
  refine OpL.ite (fun h => ?_) fun n9 => ?_
  · rcases h with h | h | h | h <;> exact two _ _ _ (by decide) h.1 h.2 (by decide) (by simp)
  refine OpL.ite (fun h => ?_) fun n10 => ?_
  · obtain ⟨h61, hm⟩ := h
    simp only [List.mem_cons, List.not_mem_nil, or_false] at hm
    rcases hm with h | h | h | h | h | h | h | h | h | h | h | h <;>
      exact two _ _ _ (by decide) h h61 (by decide) (by simp)
  have hno : ∀ e ∈ ops, e.1 <+: s → e.1.length ≤ 1 := by
    apply no2
    simp only [List.mem_cons, List.not_mem_nil, or_false, not_or]
    refine ⟨?_, ?_, ?_, ?_, ?_, ?_, ?_, ?_, ?_, ?_, ?_, ?_, ?_, ?_, ?_, ?_, ?_, ?_, ?_, ?_, ?_, ?_,
      ?_, ?_, ?_⟩ <;>
    · intro h
      obtain ⟨rfl, rfl⟩ := htake2 _ _ (by decide) h
      simp at n1 n2 n3 n4 n5 n6 n7 n8 n9 n10
  have one : ∀ (x : Byte) (k : Kind), a = x → ([x], k) ∈ ops → OpL s (pure (k, 1)) := by
    intro x k hax he
    exact ⟨k, 1, rfl, .inl ⟨([x], k), he, ⟨t, by rw [hs, hax]; rfl⟩, rfl, rfl, hno⟩⟩
  refine OpL.ite (fun h => one _ _ h (by decide)) fun m1 => ?_
  refine OpL.ite (fun h => one _ _ h (by decide)) fun m2 => ?_
  refine OpL.ite (fun h => one _ _ h (by decide)) fun m3 => ?_
  refine OpL.ite (fun h => one _ _ h (by decide)) fun m4 => ?_
  refine OpL.ite (fun h => one _ _ h (by decide)) fun m5 => ?_
  refine OpL.ite (fun h => one _ _ h (by decide)) fun m6 => ?_
  refine OpL.ite (fun h => one _ _ h (by decide)) fun m7 => ?_
  refine OpL.ite (fun h => one _ _ h (by decide)) fun m8 => ?_
  refine OpL.ite (fun h => one _ _ h (by decide)) fun m9 => ?_
  refine OpL.ite (fun h => one _ _ h (by decide)) fun m10 => ?_
  refine OpL.ite (fun h => one _ _ h (by decide)) fun m11 => ?_
  refine OpL.ite (fun h => one _ _ h (by decide)) fun m12 => ?_
  refine ⟨.op, 1, rfl, .inr ⟨fun e he hp => ?_, rfl, rfl⟩⟩
  have hl1 := hno e he hp
  have hpos := ops_pos e he
  obtain ⟨w, k⟩ := e
  obtain ⟨x, rfl⟩ : ∃ x, w = [x] := by
    cases w with
    | nil => simp at hpos
    | cons x w =>
        cases w with
        | nil => exact ⟨x, rfl⟩
        | cons y w => simp at hl1
  have hax : a = x := by
    obtain ⟨u, hu⟩ := hp
    rw [hs] at hu; simp at hu; exact hu.1.symm
  have := ops1 _ he rfl
  simp only [List.headD_cons, List.mem_cons, List.not_mem_nil, or_false] at this
  rw [← hax] at this
  rcases this with h | h | h | h | h | h | h | h | h | h | h | h | h
  all_goals first
    | exact n3 h | exact m1 h | exact m2 h | exact m3 h | exact m4 h | exact m5 h
    | exact m6 h | exact m7 h | exact m8 h | exact m9 h | exact m10 h | exact m11 h | exact m12 h

/-- C50: the same about `lexer_next` -/
theorem lex_operator {emit : Bool} {src : List Byte} {f : Nat} {l : Lex} {a : Byte} {r : List Byte}
    (hle : l.pos ≤ src.length) (hz : 0 ∉ src) (hs : src.drop l.pos = a :: r)
    (hp : a ∈ bytes ['!','$','%','&','(',')','*','+',',','-','.',':',';','<','=','>','?','@','[',']',
      '^','{','|','}','~','/'])
    (hc : a = 47 → ∀ b, r.head? = some b → b ≠ 47 ∧ b ≠ 42) :
    ∃ k n l', Longest (a :: r) k n ∧
      next emit src (f + 1) l = .ok (⟨k, l.pos, n, l.line, l.col⟩, l') ∧ l'.pos = l.pos + n := by
  have hz' : 0 ∉ a :: r := fun h => hz (List.mem_of_mem_drop (hs ▸ h))
  obtain ⟨k, n, hop, hlong⟩ := operator_longest rfl hz'
  have key : ∀ a ∈ bytes ['!','$','%','&','(',')','*','+',',','-','.',':',';','<','=','>','?','@','[',
      ']','^','{','|','}','~','/'], isSpace a = false ∧ a ≠ 35 ∧ identStart a = false ∧
      isDigit a = false ∧ a ≠ 34 ∧ a ≠ 39 := by decide
  obtain ⟨k1, k2, k3, k4, k5, k6⟩ := key a hp
  have hraw : raw (a :: r) = .ok (k, n) := by
    unfold raw
    rw [rd_lt (by simp), Run.ok_bind, List.getElem_cons_zero, if_neg (by simp [k3]),
      if_neg (by simp [k4]), if_neg k5, if_neg k6, hop]
  obtain ⟨l', h1, h2⟩ := next_raw (emit := emit) (f := f) hle hs k1 k2 hc hraw
  exact ⟨k, n, l', hlong, h1, h2⟩

/-- `..=9`: the inclusive range operator, not `..` followed by `=` -/
example : Longest [46, 46, 61, 57] .dotdotEq 3 ∧ (46 : Byte) ∈ bytes ['.'] := by
  refine ⟨.inl ⟨([46, 46, 61], .dotdotEq), by decide, ⟨[57], rfl⟩, rfl, rfl, fun e h _ => ops_len e h⟩,
    by decide⟩

/-! ## string literals -/

theorem strScan_inside {b : List Byte} (h : Inside b) (rest : List Byte) :
    strScan false (b ++ 34 :: rest) = .ok b.length := by
  have stop34 : ∀ (c : Byte) (r : List Byte), stop false 34 (c :: r) = .ok (c == 34) := by
    intro c r
    unfold stop
    rw [if_neg (by simp), rd_lt (by simp)]; rfl
  induction h with
  | nil =>
      cases rest with
      | nil => rfl
      | cons x r =>
          rw [List.nil_append, strScan, stop34, Run.ok_bind]; rfl
  | plain c b hc hc2 _ ih =>
      cases hb : b ++ 34 :: rest with
      | nil => simp at hb
      | cons d r =>
          rw [List.cons_append, hb, strScan, stop34, Run.ok_bind, if_neg (by simpa using hc),
            if_neg (by simp [hc2]), ← hb, ih]
          rfl
  | pair c b _ ih =>
      rw [List.cons_append, List.cons_append, strScan, stop34, Run.ok_bind, if_neg (by decide),
        if_pos (by simp), ih]
      rfl

/-- C50: a string literal extends exactly to its first unescaped quote.  (An empty literal followed
by a quote opens a multi-line string.) -/
theorem lex_string {emit : Bool} {src : List Byte} {f : Nat} {l : Lex} {b rest : List Byte}
    (hle : l.pos ≤ src.length) (hs : src.drop l.pos = 34 :: b ++ 34 :: rest) (hb : Inside b)
    (hm : b = [] → rest.head? ≠ some 34) :
    ∃ l', next emit src (f + 1) l
        = .ok (⟨.string, l.pos, b.length + 2, l.line, l.col⟩, l') ∧ l'.pos = l.pos + (b.length + 2) := by
  have h2 : is2 (34 :: b ++ 34 :: rest) 1 = .ok false := by
    unfold is2
    cases hb with
    | nil =>
        rw [rd_lt (by simp)]
        simp only [List.cons_append, List.nil_append, List.getElem_cons_succ, List.getElem_cons_zero,
          Run.ok_bind]
        rw [if_neg (by decide)]
        obtain ⟨c, ec, hc⟩ := rd_le (s := 34 :: 34 :: rest) (i := 1 + 1) (by simp)
        rw [ec, Run.ok_bind]
        have : c ≠ 34 := by
          rintro rfl
          obtain ⟨_, h⟩ := rd_ne ec (by decide)
          apply hm rfl
          rw [List.head?_eq_getElem?]; simpa using h
        simp [this]
    | plain c b hc hc2 _ =>
        rw [rd_lt (by simp)]
        simp only [List.cons_append, List.getElem_cons_succ, List.getElem_cons_zero, Run.ok_bind]
        rw [if_pos hc]; rfl
    | pair c b _ =>
        rw [rd_lt (by simp)]
        simp only [List.cons_append, List.getElem_cons_succ, List.getElem_cons_zero, Run.ok_bind]
        rw [if_pos (by decide)]; rfl
  have hraw : raw (34 :: b ++ 34 :: rest) = .ok (.string, b.length + 2) := by
    unfold raw
    rw [rd_lt (by simp), Run.ok_bind]
    simp only [List.cons_append, List.getElem_cons_zero]
    rw [if_neg (by decide), if_neg (by decide), if_pos trivial]
    unfold quoted
    rw [List.cons_append] at h2
    simp only [Nat.zero_add, h2, Run.ok_bind, Bool.false_eq_true, if_false, List.drop_succ_cons,
      List.drop_zero]
    rw [strScan_inside hb, Run.ok_bind]
    unfold close stop
    have hd : (34 :: (b ++ 34 :: rest)).drop (1 + b.length) = 34 :: rest := by
      rw [Nat.add_comm, List.drop_succ_cons, List.drop_left]
    rw [hd, if_neg (by simp), rd_lt (by simp)]
    simp
    omega
  exact next_raw hle hs (by decide) (by decide) (fun h => absurd h (by decide)) hraw

/-- `"a\"b" c`: the escaped quote does not end the literal -/
example : Inside [97, 92, 34, 98] :=
  .plain _ _ (by decide) (by decide) (.pair _ _ (.plain _ _ (by decide) (by decide) .nil))

end Verif.Lexer
