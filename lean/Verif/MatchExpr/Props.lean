import Verif.MatchExpr.Model

/-!
# Arms are read as written; payloads, missing variants, values
-/

namespace Verif.MatchExpr

open Spec

/-! ## Reading -/

theorem path_segs (segs : List (Tok × Tok)) (h : ∀ s ∈ segs, s.1.kind = .dcolon) (s : Str) (r : List Tok)
    (hr : (peek r).kind ≠ .dcolon) :
    path s ((segs.flatMap fun s => [s.1, s.2]) ++ r) = (s ++ segs.flatMap fun s => '_' :: s.2.text, r) := by
  induction segs generalizing s with
  | nil =>
    simp only [List.flatMap_nil, List.nil_append, List.append_nil]
    match r, hr with
    | [], _ => rfl
    | [d], hr => rw [path, if_neg (by exact hr)]
    | d :: t :: r, hr => rw [path, if_neg (by exact hr)]
  | cons g segs ih =>
    simp only [List.flatMap_cons, List.cons_append, List.nil_append]
    rw [path, if_pos (h g (List.mem_cons_self ..)), ih fun s hs => h s (List.mem_cons_of_mem _ hs)]
    simp

/-- The tokens that go on with an alternative. -/
def goesOn (k : Kind) : Prop := k = .dcolon ∨ k = .dots ∨ k = .dotsEq

theorem alt_toks {a : Alt} (h : a.Ok) {r : List Tok} (hr : ¬ goesOn (peek r).kind) :
    alt a.first.text (a.toks.tail ++ r) = (a.text, r) := by
  obtain ⟨-, -, h2, h3⟩ := h
  simp only [goesOn, not_or] at hr
  obtain ⟨r1, r2, r3⟩ := hr
  unfold alt Alt.toks Alt.text
  cases hx : a.range with
  | none =>
    simp only [List.append_nil, List.tail_cons]
    rw [path_segs _ h2 _ _ r1]
    simp only
    rw [if_neg r2, if_neg r3]
  | some de =>
    obtain ⟨d, e⟩ := de
    simp only [List.cons_append, List.tail_cons, List.append_assoc, List.nil_append]
    have hd := h3 d e hx
    rw [path_segs _ h2 _ _ (by show d.kind ≠ .dcolon; rcases hd with e | e <;> rw [e] <;> decide)]
    show (if d.kind = .dots then _ else if d.kind = .dotsEq then _ else _) = _
    rcases hd with hd | hd
    · rw [if_pos hd, hd]
      simp [peek]
    · rw [if_neg (by rw [hd]; decide), if_pos hd, if_pos hd]
      simp [peek]

theorem toks_cons (a : Alt) : a.toks = a.first :: a.toks.tail := rfl

theorem alts_toks {a : Alt} (h : a.Ok) (more : List (Tok × Alt))
    (hm : ∀ m ∈ more, (m.1.kind = .bar ∨ m.1.kind = .comma) ∧ m.2.Ok) {r : List Tok} (hr : ¬ goesOn (peek r).kind)
    (hb : (peek r).kind ≠ .bar ∧ (peek r).kind ≠ .comma) (k : Nat) (hk : more.length < k) :
    alts k (a.toks ++ (more.flatMap fun m => m.1 :: m.2.toks) ++ r) =
      .ok (a.text ++ more.flatMap fun m => '|' :: m.2.text, more.length + 1, r) := by
  induction more generalizing a k with
  | nil =>
    obtain ⟨k, rfl⟩ : ∃ j, k = j + 1 := ⟨k - 1, by simp at hk; omega⟩
    simp only [List.flatMap_nil, List.append_nil]
    rw [alts]
    have e : alt (peek (a.toks ++ r)).text (a.toks ++ r).tail = (a.text, r) := alt_toks h hr
    simp only [e]
    rw [if_neg (not_or.2 hb)]
    rfl
  | cons m more ih =>
    obtain ⟨k, rfl⟩ : ∃ j, k = j + 1 := ⟨k - 1, by simp at hk; omega⟩
    obtain ⟨hs, ho⟩ := hm m (List.mem_cons_self ..)
    simp only [List.flatMap_cons, List.cons_append, List.append_assoc]
    rw [alts]
    have hg : ¬ goesOn (peek (m.1 :: (m.2.toks ++ ((more.flatMap fun m => m.1 :: m.2.toks) ++ r)))).kind := by
      show ¬ goesOn m.1.kind
      unfold goesOn
      rcases hs with e | e <;> rw [e] <;> decide
    have e : alt (peek (a.toks ++ (m.1 :: (m.2.toks ++ ((more.flatMap fun m => m.1 :: m.2.toks) ++ r))))).text
        (a.toks ++ (m.1 :: (m.2.toks ++ ((more.flatMap fun m => m.1 :: m.2.toks) ++ r)))).tail = _ := alt_toks h hg
    simp only [e]
    rw [if_pos (by exact hs), List.tail_cons, ← List.append_assoc,
      ih ho (fun m h => hm m (List.mem_cons_of_mem _ h)) k (by simp at hk; omega)]
    simp

theorem binds_toks (bs : List (Bool × Str)) (hne : bs ≠ []) (hn : ∀ b ∈ bs, b.1 = false → b.2 ≠ "ref".toList) (k n : Nat)
    (hk : bs.length ≤ k) (h8 : n + bs.length ≤ 8) {q : Tok} (hq : q.kind = .rparen) (r : List Tok) :
    binds k n (bindToks bs ++ q :: r) = .ok (bs, r) := by
  induction bs generalizing k n with
  | nil => exact absurd rfl hne
  | cons b bs ih =>
    obtain ⟨k, rfl⟩ : ∃ j, k = j + 1 := ⟨k - 1, by simp at hk; omega⟩
    obtain ⟨f, x⟩ := b
    have hx := hn (f, x) (List.mem_cons_self ..)
    have h8' : ¬ 8 ≤ n := by simp at h8; omega
    have hq' : q.kind ≠ .comma := by rw [hq]; decide
    cases bs with
    | nil =>
      cases f with
      | true => simp [bindToks, binds, peek, h8', hq]
      | false =>
        have := hx rfl
        simp [bindToks, binds, peek, h8', hq] at this ⊢
        simp [this, h8', hq]
    | cons b bs =>
      have := ih (by simp) (fun b hb => hn b (List.mem_cons_of_mem _ hb)) k (n + 1) (by simp at hk ⊢; omega)
        (by simp at h8 ⊢; omega)
      cases f with
      | true => simp [bindToks, binds, peek, h8', this]
      | false =>
        have hx := hx rfl
        simp at hx
        simp [bindToks, binds, peek, h8', hx, this]

theorem guard_mid (g : Option (List Tok × G)) {r : List Tok} :
    ∀ k, (peek ((match g with | some (g, _) => ⟨.word, "if".toList⟩ :: g | none => []) ++ ⟨.arrow, ['=', '>']⟩ :: r)).kind = k →
      k = .word ∨ k = .arrow := by
  intro k hk
  cases g with
  | none => exact .inr hk.symm
  | some g => exact .inl hk.symm

theorem mid_peek {a : Arm G B} (r : List Tok) : (peek (a.midToks ++ r)).kind = .lparen ∨ (peek (a.midToks ++ r)).kind = .word ∨
    (peek (a.midToks ++ r)).kind = .arrow := by
  unfold Arm.midToks
  by_cases hb : a.binds = []
  · rw [if_pos hb]
    simp only [List.nil_append, List.append_assoc]
    exact .inr (guard_mid a.guard _ rfl)
  · rw [if_neg hb]
    exact .inl rfl

theorem rest_toks {pe : List Tok → Option (G × List Tok)} {pb : List Tok → Option (B × List Tok)} {a : Arm G B}
    (h : a.Ok pe pb) {r : List Tok} (hr : a.isBlock = true ∨ (peek r).kind = .comma ∨ (peek r).kind = .rbrace)
    {fuel : Nat} (hf : a.binds.length ≤ fuel) {single : Bool} (hs : a.binds ≠ [] → single = true) :
    rest pe pb fuel a.text single (a.midToks ++ (a.body.1 ++ r)) = .ok (a.case, r) := by
  have hbound : (if a.text ≠ ['_'] ∧ single = true ∧ (peek (a.midToks ++ (a.body.1 ++ r))).kind = .lparen then
      binds fuel 0 (a.midToks ++ (a.body.1 ++ r)).tail else .ok ([], a.midToks ++ (a.body.1 ++ r))) =
      .ok (a.binds, (match a.guard with | some (g, _) => ⟨.word, "if".toList⟩ :: g | none => []) ++
        ⟨.arrow, ['=', '>']⟩ :: (a.body.1 ++ r)) := by
    unfold Arm.midToks
    by_cases hb : a.binds = []
    · rw [if_pos hb]
      simp only [List.nil_append, List.append_assoc, List.cons_append]
      rw [if_neg (fun ⟨_, _, e⟩ => by rcases guard_mid a.guard _ e with e | e <;> exact absurd e (by decide)), hb]
      rfl
    · rw [if_neg hb, if_pos ⟨(h.binds hb).2, hs hb, rfl⟩]
      simp only [List.append_assoc, List.cons_append, List.tail_cons, List.nil_append]
      exact binds_toks a.binds hb h.names fuel 0 hf (by simpa using h.eight) rfl _
  unfold rest
  simp only
  rw [hbound]
  simp only
  have hbody := h.body r hr
  unfold Arm.case
  cases hg : a.guard with
  | none =>
    simp only [List.nil_append]
    rw [if_neg (fun ⟨e, _⟩ => nomatch (show Kind.arrow = Kind.word from e))]
    simp only
    rw [if_neg (by simp [peek]), List.tail_cons, hbody]
    rfl
  | some g =>
    obtain ⟨g, x⟩ := g
    simp only [List.cons_append]
    rw [if_pos ⟨rfl, rfl⟩, List.tail_cons, h.guard _ hg _ rfl]
    simp only [Option.map_some]
    rw [if_neg (by simp [peek]), List.tail_cons, hbody]

theorem flatMap_len {α : Type} (l : List α) (f : α → List Tok) (h : ∀ x ∈ l, f x ≠ []) : l.length ≤ (l.flatMap f).length := by
  induction l with
  | nil => simp
  | cons x l ih =>
    have := List.length_pos_iff.2 (h x (List.mem_cons_self ..))
    have := ih fun y hy => h y (List.mem_cons_of_mem _ hy)
    simp only [List.flatMap_cons, List.length_append, List.length_cons]
    omega

theorem bindToks_len (bs : List (Bool × Str)) : bs.length ≤ (bindToks bs).length := by
  induction bs with
  | nil => simp
  | cons b bs ih =>
    obtain ⟨f, x⟩ := b
    cases bs with
    | nil => simp [bindToks]
    | cons c bs => simp [bindToks] at ih ⊢; omega

theorem mid_len (a : Arm G B) : a.binds.length ≤ a.midToks.length := by
  have := bindToks_len a.binds
  unfold Arm.midToks
  split
  · rename_i h; rw [h]; simp
  · simp only [List.length_append, List.length_cons]; omega

/-- Whether what follows an arm may follow it. -/
def Follows (a : Arm G B) (r : List Tok) : Prop := a.isBlock = true ∨ (peek r).kind = .comma ∨ (peek r).kind = .rbrace

theorem stmtArm_toks {pe : List Tok → Option (G × List Tok)} {pb : List Tok → Option (B × List Tok)} {a : Arm G B}
    (h : a.Ok pe pb) {r : List Tok} (hr : Follows a r) {fuel : Nat} (hf : a.patToks.length + a.midToks.length ≤ fuel) :
    stmtArm pe pb fuel (a.patToks ++ a.midToks ++ a.body.1 ++ r) = .ok (a.case, r) := by
  have hp := mid_peek (a := a) (a.body.1 ++ r)
  have hlen : a.more.length < a.patToks.length := by
    have := flatMap_len a.more (fun m => m.1 :: m.2.toks) (fun _ _ => by simp)
    unfold Arm.patToks
    rw [toks_cons]
    simp only [List.length_append, List.length_cons]
    omega
  unfold stmtArm
  simp only [List.append_assoc]
  have := alts_toks h.alt a.more h.more (r := a.midToks ++ (a.body.1 ++ r)) (by
      unfold goesOn
      rcases hp with e | e | e <;> rw [e] <;> decide) (by rcases hp with e | e | e <;> rw [e] <;> decide) fuel (by omega)
  unfold Arm.patToks
  rw [this]
  simp only
  refine rest_toks h hr (by have := mid_len a; omega) ?_
  intro hb
  rw [(h.binds hb).1]
  rfl

theorem exprArm_toks {pe : List Tok → Option (G × List Tok)} {pb : List Tok → Option (B × List Tok)} {a : Arm G B}
    (h : a.Ok pe pb) (hs : a.simple) {r : List Tok} (hr : Follows a r) {fuel : Nat}
    (hf : a.patToks.length + a.midToks.length ≤ fuel) :
    exprArm pe pb fuel (a.patToks ++ a.midToks ++ a.body.1 ++ r) = .ok (a.case, r) := by
  obtain ⟨h1, h2, h3⟩ := hs
  have e1 : a.patToks = [a.alt.first] := by simp [Arm.patToks, Alt.toks, h1, h2, h3]
  have e2 : a.text = a.alt.first.text := by simp [Arm.text, Alt.text, h1, h2, h3]
  unfold exprArm
  rw [e1]
  simp only [List.cons_append, List.nil_append, List.append_assoc, List.tail_cons]
  show rest pe pb fuel a.alt.first.text true _ = _
  rw [← e2]
  exact rest_toks h hr (by have := mid_len a; omega) fun _ => rfl

theorem arms_toks {pe : List Tok → Option (G × List Tok)} {pb : List Tok → Option (B × List Tok)} {as : List (Arm G B)}
    (h : Arms pe pb as) (arm : List Tok → Res (Case G B × List Tok)) {q : Tok} (hq : q.kind = .rbrace) (end' : List Tok)
    (harm : ∀ a ∈ as, ∀ r, Follows a r → arm (a.patToks ++ a.midToks ++ a.body.1 ++ r) = .ok (a.case, r)) :
    ∀ (k : Nat) (c : Bool), as.length < k →
    arms arm k ((if c then [⟨.comma, [',']⟩] else []) ++ as.flatMap Arm.toks ++ q :: end') = .ok (as.map Arm.case, end') := by
  have hq' : q.kind ≠ .comma := by rw [hq]; decide
  have step : ∀ (a : Arm G B) (l : List Tok) (r : List Tok) (k : Nat) (c : Bool), a.alt.Ok →
      arm (a.patToks ++ l) = .ok (a.case, r) →
      arms arm (k + 1) ((if c then [⟨.comma, [',']⟩] else []) ++ (a.patToks ++ l)) =
        match arms arm k r with | .ok (cs, r) => .ok (a.case :: cs, r) | .error => .error | .ub => .ub := by
    intro a l r k c ha hr
    have hp : peek (a.patToks ++ l) = a.alt.first := rfl
    rw [arms]
    cases c with
    | true =>
      simp only [if_true, List.cons_append, List.nil_append, List.tail_cons]
      rw [if_neg (show (peek (⟨.comma, [',']⟩ :: (a.patToks ++ l))).kind ≠ .rbrace from fun e =>
          nomatch (show Kind.comma = Kind.rbrace from e)),
        if_pos (show (peek (⟨.comma, [',']⟩ :: (a.patToks ++ l))).kind = .comma from rfl), hp, if_neg ha.1, hr]
      rfl
    | false =>
      simp only [Bool.false_eq_true, if_false, List.nil_append]
      rw [hp, if_neg ha.1, if_neg ha.2.1, hp, if_neg ha.1, hr]
      rfl
  induction h with
  | nil =>
    intro k c hk
    obtain ⟨k, rfl⟩ : ∃ j, k = j + 1 := ⟨k - 1, by simp at hk; omega⟩
    cases c with
    | true => simp [arms, peek, hq]
    | false => simp [arms, peek, hq]
  | last ha =>
    rename_i a
    intro k c hk
    obtain ⟨k, rfl⟩ : ∃ j, k = j + 2 := ⟨k - 2, by simp at hk; omega⟩
    have hf : Follows a ((if a.comma then [⟨.comma, [',']⟩] else []) ++ q :: end') := by
      cases a.comma with
      | true => exact .inr (.inl rfl)
      | false => exact .inr (.inr hq)
    have := step a (a.midToks ++ (a.body.1 ++ ((if a.comma then [⟨.comma, [',']⟩] else []) ++ q :: end'))) _ (k + 1) c ha.alt
      (by have := harm a (List.mem_cons_self ..) _ hf; simpa only [List.append_assoc] using this)
    simp only [List.flatMap_cons, List.flatMap_nil, List.append_nil, Arm.toks, List.append_assoc]
    rw [this]
    have hend : arms arm (k + 1) ((if a.comma then [⟨.comma, [',']⟩] else []) ++ q :: end') = .ok ([], end') := by
      cases a.comma with
      | true => simp [arms, peek, hq]
      | false => simp [arms, peek, hq]
    rw [hend]
    rfl
  | cons ha hb _ ih =>
    rename_i a b as _
    intro k c hk
    obtain ⟨k, rfl⟩ : ∃ j, k = j + 1 := ⟨k - 1, by simp at hk; omega⟩
    have hf : Follows a ((if a.comma then [⟨.comma, [',']⟩] else []) ++ ((b :: as).flatMap Arm.toks ++ q :: end')) := by
      rcases hb with hb | hb
      · exact .inl hb
      · rw [hb]; exact .inr (.inl rfl)
    have := step a (a.midToks ++ (a.body.1 ++ ((if a.comma then [⟨.comma, [',']⟩] else []) ++
        ((b :: as).flatMap Arm.toks ++ q :: end')))) _ k c ha.alt
      (by have := harm a (List.mem_cons_self ..) _ hf; simpa only [List.append_assoc] using this)
    rw [List.flatMap_cons]
    simp only [Arm.toks, List.append_assoc] at this ⊢
    rw [this]
    have := ih (fun x hx => harm x (List.mem_cons_of_mem _ hx)) k a.comma (by simp at hk ⊢; omega)
    simp only [List.append_assoc] at this
    rw [this]
    rfl

theorem toks_len (a : Arm G B) : a.patToks.length + a.midToks.length ≤ a.toks.length := by
  unfold Arm.toks
  simp only [List.length_append]
  omega

theorem mem_len {as : List (Arm G B)} {a : Arm G B} (h : a ∈ as) : a.toks.length ≤ (as.flatMap Arm.toks).length := by
  induction as with
  | nil => cases h
  | cons b as ih =>
    rw [List.flatMap_cons, List.length_append]
    rcases List.mem_cons.1 h with rfl | h
    · omega
    · have := ih h; omega

theorem arms_ok {pe : List Tok → Option (G × List Tok)} {pb : List Tok → Option (B × List Tok)} {as : List (Arm G B)}
    (h : Arms pe pb as) : ∀ a ∈ as, a.Ok pe pb := by
  induction h with
  | nil => intro a h; cases h
  | last ha => intro a h; rcases List.mem_cons.1 h with rfl | h; exact ha; cases h
  | cons ha _ _ ih =>
    intro a h
    rcases List.mem_cons.1 h with rfl | h
    · exact ha
    · exact ih a h

theorem arms_count (as : List (Arm G B)) : as.length ≤ (as.flatMap Arm.toks).length :=
  flatMap_len as Arm.toks fun a _ => by
    unfold Arm.toks Arm.patToks
    rw [toks_cons]
    simp

/-- **The arms of a `match` statement are read as they are written**: alternatives, paths, ranges, variables, guards and
bodies, any number of arms. -/
theorem statement_arms {pe : List Tok → Option (G × List Tok)} {pb : List Tok → Option (B × List Tok)} {as : List (Arm G B)}
    (h : Arms pe pb as) {q : Tok} (hq : q.kind = .rbrace) (r : List Tok) :
    stmtMatch pe pb (as.flatMap Arm.toks ++ q :: r) = .ok (as.map Arm.case, r) := by
  unfold stmtMatch
  refine arms_toks h _ hq r ?_ _ false ?_
  · intro a ha r' hr
    refine stmtArm_toks (arms_ok h a ha) hr ?_
    have := mem_len ha
    have := toks_len a
    simp only [List.length_append]
    omega
  · have := arms_count as
    simp only [List.length_append]
    omega

/-- **The arms of a `match` in an expression are read as they are written, if each pattern is one token.** -/
theorem expression_arms_partial {pe : List Tok → Option (G × List Tok)} {pb : List Tok → Option (B × List Tok)}
    {as : List (Arm G B)} (h : Arms pe pb as) (hs : ∀ a ∈ as, a.simple) {q : Tok} (hq : q.kind = .rbrace) (r : List Tok) :
    exprMatch pe pb (as.flatMap Arm.toks ++ q :: r) = .ok (as.map Arm.case, r) := by
  unfold exprMatch
  refine arms_toks h _ hq r ?_ _ false ?_
  · intro a ha r' hr
    refine exprArm_toks (arms_ok h a ha) (hs a ha) hr ?_
    have := mem_len ha
    have := toks_len a
    simp only [List.length_append]
    omega
  · have := arms_count as
    simp only [List.length_append]
    omega

/-- **Paths, ranges and alternatives are refused in a `match` inside an expression**: an arm with any of them is an error,
whatever follows. -/
theorem expression_pattern_violated {pe : List Tok → Option (G × List Tok)} {pb : List Tok → Option (B × List Tok)}
    {a : Arm G B} (h : a.Ok pe pb) (hs : ¬ a.simple) (r : List Tok) : exprMatch pe pb (a.toks ++ r) = .error := by
  have key : ∀ (f t : Tok) (l : List Tok), f.kind ≠ .rbrace → f.kind ≠ .comma → t.kind ≠ .lparen → t.kind ≠ .word →
      t.kind ≠ .arrow → exprMatch pe pb (f :: t :: l) = .error := by
    intro f t l h1 h2 h3 h4 h5
    simp [exprMatch, arms, peek, h1, h2, exprArm, rest, h3, h4, h5]
  obtain ⟨h1, h2, h3, h4⟩ := h.alt
  unfold Arm.toks Arm.patToks Alt.toks
  cases hsegs : a.alt.segs with
  | cons s ss =>
    have := h3 s (by rw [hsegs]; exact List.mem_cons_self ..)
    simp only [List.flatMap_cons, List.cons_append, List.nil_append]
    exact key _ _ _ h1 h2 (by rw [this]; decide) (by rw [this]; decide) (by rw [this]; decide)
  | nil =>
    cases hr : a.alt.range with
    | some de =>
      obtain ⟨d, e⟩ := de
      simp only [List.flatMap_nil, List.cons_append, List.nil_append]
      rcases h4 d e hr with this | this <;>
        exact key _ _ _ h1 h2 (by rw [this]; decide) (by rw [this]; decide) (by rw [this]; decide)
    | none =>
      cases hm : a.more with
      | nil => exact absurd ⟨hsegs, hr, hm⟩ hs
      | cons m ms =>
        have := (h.more m (by rw [hm]; exact List.mem_cons_self ..)).1
        simp only [List.flatMap_nil, List.flatMap_cons, List.cons_append, List.nil_append]
        rcases this with this | this <;>
          exact key _ _ _ h1 h2 (by rw [this]; decide) (by rw [this]; decide) (by rw [this]; decide)

/-- **Negative numbers are refused as patterns**, in both. -/
theorem negative_violated {pe : List Tok → Option (G × List Tok)} {pb : List Tok → Option (B × List Tok)} (n : Str)
    (r : List Tok) : stmtMatch pe pb (⟨.other, ['-']⟩ :: ⟨.lit, n⟩ :: r) = .error ∧
      exprMatch pe pb (⟨.other, ['-']⟩ :: ⟨.lit, n⟩ :: r) = .error := by
  constructor
  · cases r with
    | nil => simp [stmtMatch, arms, peek, stmtArm, alts, alt, path, rest]
    | cons t r => simp [stmtMatch, arms, peek, stmtArm, alts, alt, path, rest]
  · simp [exprMatch, arms, peek, exprArm, rest]

theorem binds_ub (bs : List (Bool × Str)) (hn : ∀ b ∈ bs, b.1 = false → b.2 ≠ "ref".toList) (k n : Nat) (hk : bs.length ≤ k)
    (h8 : 8 < n + bs.length) (hn8 : n ≤ 8) (r : List Tok) : binds k n (bindToks bs ++ r) = .ub := by
  induction bs generalizing k n with
  | nil => simp at h8; omega
  | cons b bs ih =>
    obtain ⟨k, rfl⟩ : ∃ j, k = j + 1 := ⟨k - 1, by simp at hk; omega⟩
    obtain ⟨f, x⟩ := b
    have hx := hn (f, x) (List.mem_cons_self ..)
    by_cases h : 8 ≤ n
    · cases f with
      | true => cases bs <;> simp [bindToks, binds, peek, h]
      | false =>
        have hx := hx rfl
        simp at hx
        cases bs <;> simp [bindToks, binds, peek, h, hx]
    · cases bs with
      | nil => simp at h8; omega
      | cons b bs =>
        have := ih (fun b hb => hn b (List.mem_cons_of_mem _ hb)) k (n + 1) (by simp at hk ⊢; omega)
          (by simp at h8 ⊢; omega) (by omega)
        cases f with
        | true => simp [bindToks, binds, peek, h, this]
        | false =>
          have hx := hx rfl
          simp at hx
          simp [bindToks, binds, peek, h, hx, this]

/-- **A ninth variable is written beyond the array.** -/
theorem nine_violated {pe : List Tok → Option (G × List Tok)} {pb : List Tok → Option (B × List Tok)} {f : Tok}
    (h1 : f.kind ≠ .rbrace) (h2 : f.kind ≠ .comma) (h3 : f.text ≠ ['_']) {bs : List (Bool × Str)}
    (hn : ∀ b ∈ bs, b.1 = false → b.2 ≠ "ref".toList) (h9 : 9 ≤ bs.length) (r : List Tok) :
    exprMatch pe pb (f :: ⟨.lparen, ['(']⟩ :: (bindToks bs ++ r)) = .ub := by
  have hl := bindToks_len bs
  have := binds_ub bs hn ((f :: ⟨.lparen, ['(']⟩ :: (bindToks bs ++ r)).length + 1) 0
    (by simp only [List.length_cons, List.length_append]; omega) (by omega) (by omega) r
  simp only [exprMatch, arms, exprArm, rest]
  simp only [List.length_cons] at this
  simp [peek, h1, h2, h3]
  simp at this
  rw [this]

/-- Two arms, as in `Shape::Rect(w, ref h) if g => x, 1..=5 || 7 => { y }`. -/
def sample : List (Arm Nat Nat) :=
  [{ alt := ⟨⟨.word, "Shape".toList⟩, [(⟨.dcolon, "::".toList⟩, ⟨.word, "Rect".toList⟩)], none⟩, more := [],
     binds := [(false, "w".toList), (true, "h".toList)], guard := some ([⟨.word, "g".toList⟩], 1), body := ([⟨.word, "x".toList⟩], 2),
     isBlock := false, comma := true },
   { alt := ⟨⟨.lit, "1".toList⟩, [], some (⟨.dotsEq, "..=".toList⟩, ⟨.lit, "5".toList⟩)⟩,
     more := [(⟨.bar, "||".toList⟩, ⟨⟨.lit, "7".toList⟩, [], none⟩)],
     binds := [], guard := none, body := ([⟨.lbrace, ['{']⟩, ⟨.word, "y".toList⟩, ⟨.rbrace, ['}']⟩], 3), isBlock := true, comma := false }]

/-- Reading of one word as a guard, and of one word or a block of one word as a body. -/
def peS (ts : List Tok) : Option (Nat × List Tok) := some (1, ts.tail)

/-- Bodies of the sample. -/
def pbS : List Tok → Option (Nat × List Tok)
  | ⟨.lbrace, _⟩ :: _ :: _ :: r => some (3, r)
  | _ :: r => some (2, r)
  | [] => none

example : Arms peS pbS sample := by
  refine .cons ⟨⟨by decide, by decide, ?_, ?_⟩, ?_, ?_, ?_, by decide, ?_, ?_⟩ (.inr rfl)
    (.last ⟨⟨by decide, by decide, ?_, ?_⟩, ?_, ?_, ?_, by decide, ?_, ?_⟩)
  · intro s hs; simp at hs; subst hs; rfl
  · intro d e h; simp at h
  · intro m hm; cases hm
  · intro _; exact ⟨rfl, by decide +kernel⟩
  · intro b hb; simp at hb; rcases hb with rfl | rfl <;> decide +kernel
  · intro g hg r _; simp at hg; subst hg; rfl
  · intro r _; rfl
  · intro s hs; cases hs
  · intro d e h; simp at h; exact .inr (by rw [← h.1])
  · intro m hm
    simp at hm; subst hm
    exact ⟨.inl rfl, by decide, by decide, (fun _ h => nomatch h), fun _ _ h => nomatch h⟩
  · intro h; exact absurd rfl h
  · intro b hb; cases hb
  · intro g hg; cases hg
  · intro r _; rfl

example : sample.map (fun a => String.ofList a.text) = ["Shape_Rect", "1..=5|7"] := by decide +kernel

end Verif.MatchExpr
