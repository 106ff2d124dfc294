import Verif.RawBlock.Model

/-! # Raw blocks and preprocessor directives: properties (C181) -/

namespace Verif.RawBlock
open Verif Spec

/-! ## Raw blocks are cut out whole -/

theorem rawLoop_balanced {ts : List Tk} (h : Balanced ts) : ∀ (d : Nat) (acc : List Byte) (rest : List Tk),
    rawLoop (d + 1) acc (ts ++ rest) = rawLoop (d + 1) (acc ++ bytes ts) rest := by
  induction h with
  | nil => intros; simp [bytes]
  | @tok t r hk _ ih =>
      intro d acc rest
      simp only [List.cons_append, rawLoop, hk, Nat.add_eq_zero_iff, Nat.one_ne_zero, and_false, if_false, ih]
      simp [bytes]
  | @braces o a c r ho hc _ _ iha ihr =>
      intro d acc rest
      have e : (o :: (a ++ c :: r)) ++ rest = o :: (a ++ (c :: (r ++ rest))) := by simp
      rw [e]
      simp only [rawLoop, ho, Nat.add_eq_zero_iff, Nat.one_ne_zero, and_false, if_false, iha, hc,
        Nat.add_sub_cancel, ihr]
      simp [bytes]

/-- C181: the text of a raw block is exactly what stands between its braces, blanks and comments
included, if the braces in it match; what follows begins behind the closing one. -/
theorem raw_exact (body : List Tk) (hb : Balanced body) (p : List Byte) (rest : List Tk) :
    rawTop (body ++ ⟨p, .close, [125]⟩ :: rest) = .ok (bytes body ++ p, rest) := by
  have := rawLoop_balanced hb 0 [] (⟨p, .close, [125]⟩ :: rest)
  rw [rawTop, this]
  simp [rawLoop, List.dropLast_append_of_ne_nil]

/-- C181: without a closing brace the block is reported. -/
theorem raw_open_reported (body : List Tk) (hb : Balanced body) : rawTop body = .panic ∧ rawStmt body = .panic := by
  have := rawLoop_balanced hb 0 [] []
  rw [List.append_nil] at this
  exact ⟨this, by rw [rawStmt, show rawLoop 1 [] body = .panic from this]; rfl⟩

theorem normalize_plain : ∀ (l : List Byte) (r : List Byte), 13 ∉ l → normalize (l ++ r) = l ++ normalize r
  | [], _, _ => rfl
  | c :: l, r, h => by
      simp only [List.mem_cons, not_or] at h
      rw [List.cons_append, normalize, if_neg (Ne.symm h.1), normalize_plain l r h.2]
      rfl

theorem normalize_lines : ∀ (ls : List (List Byte × Eol)) (last : List Byte),
    (∀ l ∈ ls, 10 ∉ l.1 ∧ 13 ∉ l.1) → 13 ∉ last → Clear last ls →
    normalize (linesText ls last) = linesText (ls.map fun l => (l.1, .lf)) last
  | [], last, _, h2, _ => by
      simp only [linesText, List.map_nil, List.flatten_nil, List.nil_append]
      have := normalize_plain last [] h2
      simpa [normalize] using this
  | (l, e) :: ls, last, h1, h2, hc => by
      have ih := normalize_lines ls last (fun x hx => h1 x (by simp [hx])) h2 hc.2
      have e1 : linesText ((l, e) :: ls) last = l ++ (e.text ++ linesText ls last) := by simp [linesText]
      have e2 : linesText (((l, e) :: ls).map fun l => (l.1, Eol.lf)) last
          = l ++ 10 :: linesText (ls.map fun l => (l.1, .lf)) last := by simp [linesText, Eol.text]
      rw [e1, e2, normalize_plain _ _ (h1 (l, e) (by simp)).2, ← ih]
      congr 1
      cases e with
      | lf => simp [Eol.text, normalize]
      | crlf => simp [Eol.text, normalize]
      | cr =>
          have := hc.1 rfl
          simp only [Eol.text, List.cons_append, List.nil_append, normalize, if_true, if_neg this]

/-- C181: a raw block as a statement has its lines, whatever their ends, with line feeds. -/
theorem raw_stmt_lines (body : List Tk) (hb : Balanced body) (p : List Byte) (rest : List Tk)
    (ls : List (List Byte × Eol)) (last : List Byte) (ht : bytes body ++ p = linesText ls last)
    (h1 : ∀ l ∈ ls, 10 ∉ l.1 ∧ 13 ∉ l.1) (h2 : 13 ∉ last) (hc : Clear last ls) :
    rawStmt (body ++ ⟨p, .close, [125]⟩ :: rest) = .ok (linesText (ls.map fun l => (l.1, .lf)) last, rest) := by
  have := raw_exact body hb p rest
  unfold rawTop at this
  rw [rawStmt, this, ht, Res.ok_bind]
  show Res.ok (normalize (linesText ls last), rest) = _
  rw [normalize_lines ls last h1 h2 hc]

/-- C181: no carriage return is left in it. -/
theorem raw_stmt_no_cr : ∀ (c : List Byte), 13 ∉ normalize c
  | [] => by simp [normalize]
  | c :: r => by
      have ih := raw_stmt_no_cr r
      rw [normalize]
      by_cases h : c = 13
      · rw [if_pos h]
        by_cases h2 : r.head? = some 10
        · rw [if_pos h2]; exact ih
        · rw [if_neg h2]; simp [ih]
      · rw [if_neg h]
        simp only [List.mem_cons, not_or]
        exact ⟨Ne.symm h, ih⟩

/-! ## Directives are cut out whole -/

theorem directive_step {c : Byte} {r : List Byte} (h : c ≠ 10) (h2 : ∀ r', c = 92 → r = 10 :: r' → False) :
    directive (c :: r) = (c :: (directive r).1, (directive r).2) := by
  conv => lhs; unfold directive
  rw [if_neg h]
  split
  · exact absurd rfl (fun e => h2 _ rfl e)
  · rfl

theorem directive_line : ∀ (l : List Byte) (r : List Byte), 10 ∉ l → (∀ x, l.getLast? = some x → x ≠ 92) →
    directive (l ++ 10 :: r) = (l, 10 :: r)
  | [], r, _, _ => by simp [directive]
  | [c], r, h, h2 => by
      have h92 : c ≠ 92 := h2 c rfl
      have h10 : c ≠ 10 := by rintro rfl; exact h (by simp)
      rw [List.singleton_append, directive_step h10 (fun _ e _ => h92 e)]
      simp [directive]
  | c :: d :: l, r, h, h2 => by
      simp only [List.mem_cons, not_or] at h
      have ih := directive_line (d :: l) r (by simp only [List.mem_cons, not_or]; exact h.2)
        (fun x hx => h2 x (by simpa using hx))
      rw [List.cons_append, directive_step (Ne.symm h.1), ih]
      intro r' _ e
      rw [List.cons_append] at e
      cases e
      exact h.2.1 rfl

theorem directive_cont : ∀ (l : List Byte) (r : List Byte), 10 ∉ l →
    directive (l ++ 92 :: 10 :: r) = (l ++ 92 :: 10 :: (directive r).1, (directive r).2)
  | [], r, _ => by
      rw [List.nil_append, directive]; rfl
  | c :: l, r, h => by
      simp only [List.mem_cons, not_or] at h
      have ih := directive_cont l r h.2
      rw [List.cons_append, directive_step (Ne.symm h.1), ih]
      · rfl
      · intro r' _ e
        cases l with
        | nil => cases e
        | cons d l =>
            rw [List.cons_append] at e
            cases e
            exact h.2 (by simp)

/-- C181: a directive is passed on with all the lines that a backslash at the end of the line adds to
it, and with nothing of the next line. -/
theorem directive_exact (ls : List (List Byte)) (last rest : List Byte) (h : ∀ l ∈ ls, 10 ∉ l)
    (hl : 10 ∉ last) (hb : ∀ x, last.getLast? = some x → x ≠ 92) :
    directive (joined [10] ls last ++ 10 :: rest) = (joined [10] ls last, 10 :: rest) ∧
    directiveText (joined [10] ls last ++ 10 :: rest) = joined [10] ls last ++ [10] := by
  have key : directive (joined [10] ls last ++ 10 :: rest) = (joined [10] ls last, 10 :: rest) := by
    induction ls with
    | nil => exact directive_line last rest hl hb
    | cons l ls ih =>
        have ih := ih (fun x hx => h x (by simp [hx]))
        have e : joined [10] (l :: ls) last ++ 10 :: rest = l ++ 92 :: 10 :: (joined [10] ls last ++ 10 :: rest) := by
          simp [joined]
        rw [e, directive_cont _ _ (h l (by simp)), ih]
        simp [joined]
  exact ⟨key, by rw [directiveText, key]⟩

theorem directive_plain : ∀ (l : List Byte) (r : List Byte), 10 ∉ l → 92 ∉ l →
    directive (l ++ r) = (l ++ (directive r).1, (directive r).2)
  | [], r, _, _ => rfl
  | c :: l, r, h, h2 => by
      simp only [List.mem_cons, not_or] at h h2
      rw [List.cons_append, directive_step (Ne.symm h.1) (fun _ e _ => h2.1 e.symm), directive_plain l r h.2 h2.2]
      rfl

/-- C181 refuted: in a file with carriage returns a directive ends with its first line, backslash or
not; the next lines are read as Zen C. -/
theorem directive_crlf_violated (l : List Byte) (ls : List (List Byte)) (last : List Byte)
    (h : 10 ∉ l) (h2 : 92 ∉ l) :
    directive (joined [13, 10] (l :: ls) last) = (l ++ [92, 13], 10 :: joined [13, 10] ls last) := by
  have e : joined [13, 10] (l :: ls) last = l ++ (92 :: 13 :: 10 :: joined [13, 10] ls last) := by simp [joined]
  rw [e, directive_plain l _ h h2]
  simp [directive]

/-! ## Emission -/

theorem pass_spec (dirs : Bool) : ∀ (ns : List Node) (seen : List (List Byte)),
    (pass dirs seen ns).1.Sublist ((raws ns).filter fun c => isDir c = dirs) ∧
    (pass dirs seen ns).1.Nodup ∧ (∀ c ∈ (pass dirs seen ns).1, c ∉ seen) ∧
    (∀ c ∈ raws ns, isDir c = dirs → c ∉ seen → c ∈ (pass dirs seen ns).1) ∧
    ∀ c, c ∈ (pass dirs seen ns).2 ↔ c ∈ seen ∨ c ∈ (pass dirs seen ns).1
  | [], seen => by simp [pass, raws]
  | .other :: r, seen => by simpa [pass, raws] using pass_spec dirs r seen
  | .raw c :: r, seen => by
      by_cases hd : isDir c = dirs
      · by_cases hs : c ∈ seen
        · obtain ⟨h1, h2, h3, h4, h5⟩ := pass_spec dirs r seen
          simp only [pass, hd, hs, if_true, raws]
          refine ⟨?_, h2, h3, ?_, h5⟩
          · rw [List.filter_cons]; split
            · exact h1.cons _
            · exact h1
          · intro x hx hxd hxs
            rcases List.mem_cons.mp hx with rfl | hx
            · exact absurd hs hxs
            · exact h4 x hx hxd hxs
        · obtain ⟨h1, h2, h3, h4, h5⟩ := pass_spec dirs r (c :: seen)
          simp only [pass, hd, hs, if_true, if_false, raws]
          refine ⟨?_, ?_, ?_, ?_, ?_⟩
          · rw [List.filter_cons_of_pos (by simp [hd])]; exact h1.cons_cons _
          · exact List.nodup_cons.mpr ⟨fun hm => (h3 c hm) (by simp), h2⟩
          · intro x hx
            rcases List.mem_cons.mp hx with rfl | hx
            · exact hs
            · exact fun hm => h3 x hx (by simp [hm])
          · intro x hx hxd hxs
            by_cases e : x = c
            · simp [e]
            · rcases List.mem_cons.mp hx with e2 | hx
              · exact absurd e2 e
              · exact List.mem_cons_of_mem _ (h4 x hx hxd (by simp [e, hxs]))
          · intro x
            rw [h5 x]
            simp only [List.mem_cons]
            constructor
            · rintro ((h | h) | h)
              · exact .inr (.inl h)
              · exact .inl h
              · exact .inr (.inr h)
            · rintro (h | h | h)
              · exact .inl (.inr h)
              · exact .inl (.inl h)
              · exact .inr h
      · obtain ⟨h1, h2, h3, h4, h5⟩ := pass_spec dirs r seen
        simp only [pass, hd, if_false, raws]
        refine ⟨?_, h2, h3, ?_, h5⟩
        · rw [List.filter_cons_of_neg (by simp [hd])]; exact h1
        · intro x hx hxd hxs
          rcases List.mem_cons.mp hx with rfl | hx
          · exact absurd hxd hd
          · exact h4 x hx hxd hxs

/-- C181: every raw text and every directive of the program is in the output, whatever the order of
the nodes, and each text once; the directives are in front of the struct definitions, the others
behind them, each kind in the order of the program. -/
theorem emit_once (ns : List Node) :
    ∃ ds os : List (List Byte), emit ns = ds.map .raw ++ .structs :: os.map .raw ∧
      ds.Sublist ((raws ns).filter fun c => isDir c) ∧ os.Sublist ((raws ns).filter fun c => !isDir c) ∧
      (ds ++ os).Nodup ∧ ∀ c, c ∈ raws ns ↔ c ∈ ds ++ os := by
  obtain ⟨a1, a2, a3, a4, a5⟩ := pass_spec true ns []
  obtain ⟨b1, b2, b3, b4, _⟩ := pass_spec false ns (pass true [] ns).2
  have dA : ∀ c ∈ (pass true [] ns).1, isDir c = true := by
    intro c hc
    simpa using (List.mem_filter.mp (a1.subset hc)).2
  have dB : ∀ c ∈ (pass false (pass true [] ns).2 ns).1, isDir c = false := by
    intro c hc
    simpa using (List.mem_filter.mp (b1.subset hc)).2
  refine ⟨(pass true [] ns).1, (pass false (pass true [] ns).2 ns).1, rfl, by simpa using a1, ?_, ?_, ?_⟩
  · have : (fun c => decide (isDir c = false)) = fun c => !isDir c := by
      funext c; cases isDir c <;> rfl
    rw [← this]; exact b1
  · rw [List.nodup_append]
    refine ⟨a2, b2, ?_⟩
    intro a ha b hb e
    subst e
    have := dA a ha
    rw [dB a hb] at this
    cases this
  · intro c
    constructor
    · intro hc
      rw [List.mem_append]
      cases hd : isDir c with
      | true => exact .inl (a4 c hc hd (by simp))
      | false =>
          refine .inr (b4 c hc hd ?_)
          rw [a5]
          rintro (h | h)
          · simp at h
          · have := dA c h; rw [hd] at this; cases this
    · intro hc
      rcases List.mem_append.mp hc with hc | hc
      · exact (List.mem_filter.mp (a1.subset hc)).1
      · exact (List.mem_filter.mp (b1.subset hc)).1

theorem pass_nodup (dirs : Bool) : ∀ (ns : List Node) (seen : List (List Byte)), (raws ns).Nodup →
    (∀ c ∈ raws ns, isDir c = dirs → c ∉ seen) →
    (pass dirs seen ns).1 = (raws ns).filter fun c => isDir c = dirs
  | [], _, _, _ => rfl
  | .other :: r, seen, hn, hs => by simpa [pass, raws] using pass_nodup dirs r seen hn hs
  | .raw c :: r, seen, hn, hs => by
      simp only [raws, List.nodup_cons] at hn
      by_cases hd : isDir c = dirs
      · have h0 : c ∉ seen := hs c (by simp [raws]) hd
        have ih := pass_nodup dirs r (c :: seen) hn.2 (by
          intro x hx hxd hm
          rcases List.mem_cons.mp hm with rfl | hm
          · exact hn.1 hx
          · exact hs x (by simp [raws, hx]) hxd hm)
        simp only [pass, hd, h0, if_true, if_false, raws]
        rw [List.filter_cons_of_pos (by simp [hd]), ih]
      · have ih := pass_nodup dirs r seen hn.2 (fun x hx => hs x (by simp [raws, hx]))
        simp only [pass, hd, if_false, raws]
        rw [List.filter_cons_of_neg (by simp [hd]), ih]

/-- C181 (partial): if no text occurs twice, and every directive stands in front of every raw block
that does not begin with one, the raw texts are in the output in the order of the program.
Missing: equal texts (`repeated_dropped_violated`, `conditionals_violated`) and directives behind
blocks (`guarded_block_violated`). -/
theorem emit_order_partial (ns : List Node) (ds os : List (List Byte)) (hr : raws ns = ds ++ os)
    (hn : (raws ns).Nodup) (hd : ∀ c ∈ ds, isDir c = true) (ho : ∀ c ∈ os, isDir c = false) :
    outRaws (emit ns) = raws ns ∧ emit ns = ds.map .raw ++ .structs :: os.map .raw := by
  have e1 : (pass true [] ns).1 = ds := by
    rw [pass_nodup true ns [] hn (by simp), hr, List.filter_append, List.filter_eq_self.mpr (by simpa using hd),
      List.filter_eq_nil_iff.mpr (by intro c hc; simp [ho c hc])]
    simp
  have e2 : (pass false (pass true [] ns).2 ns).1 = os := by
    rw [pass_nodup false ns _ hn, hr, List.filter_append, List.filter_eq_nil_iff.mpr (by intro c hc; simp [hd c hc]),
      List.filter_eq_self.mpr (by simpa using ho)]
    · simp
    · intro c hc hdc hm
      rcases ((pass_spec true ns []).2.2.2.2 c).mp hm with h | h
      · simp at h
      · rw [e1] at h
        rw [hd c h] at hdc; cases hdc
  have e3 : emit ns = ds.map .raw ++ .structs :: os.map .raw := by
    rw [← e1, ← e2]; rfl
  refine ⟨?_, e3⟩
  have ro : ∀ (a : List (List Byte)) (b : List Piece), outRaws (a.map .raw ++ b) = a ++ outRaws b := by
    intro a b
    induction a with
    | nil => rfl
    | cons x a ih => simp [outRaws, ih]
  have := ro os []
  simp only [List.append_nil] at this
  rw [e3, ro, hr, outRaws, this]
  simp [outRaws]

/-- C181 refuted: a text that occurs a second time is not emitted again, wherever it stands. -/
theorem repeated_dropped_violated (xs ys : List Node) (c : List Byte) (h : c ∈ raws xs) :
    emit (xs ++ .raw c :: ys) = emit (xs ++ ys) := by
  have key : ∀ (dirs : Bool) (xs : List Node) (seen : List (List Byte)), (c ∈ seen ∨ c ∈ raws xs) →
      pass dirs seen (xs ++ .raw c :: ys) = pass dirs seen (xs ++ ys) := by
    intro dirs xs
    induction xs with
    | nil =>
        intro seen hs
        rcases hs with hs | hs
        · simp only [List.nil_append, pass, hs, if_true]; split <;> rfl
        · simp [raws] at hs
    | cons n xs ih =>
        intro seen hs
        cases n with
        | other => simpa [pass] using ih seen (by simpa [raws] using hs)
        | raw d =>
            simp only [raws, List.mem_cons] at hs
            simp only [List.cons_append, pass]
            by_cases hd : isDir d = dirs
            · rw [if_pos hd, if_pos hd]
              by_cases hm : d ∈ seen
              · rw [if_pos hm, if_pos hm]
                apply ih
                rcases hs with h | h | h
                · exact .inl h
                · exact .inl (h ▸ hm)
                · exact .inr h
              · rw [if_neg hm, if_neg hm, ih (d :: seen) (by
                  rcases hs with h | h | h
                  · exact .inl (by simp [h])
                  · exact .inl (by simp [h])
                  · exact .inr h)]
            · rw [if_neg hd, if_neg hd]
              by_cases hc : c ∈ seen ∨ c ∈ raws xs
              · exact ih seen hc
              · have e : c = d := by
                  rcases hs with h | h | h
                  · exact absurd (.inl h) hc
                  · exact h
                  · exact absurd (.inr h) hc
                have hcd : ¬ isDir c = dirs := e ▸ hd
                clear ih
                have : ∀ (zs : List Node) (seen : List (List Byte)),
                    pass dirs seen (zs ++ .raw c :: ys) = pass dirs seen (zs ++ ys) := by
                  intro zs
                  induction zs with
                  | nil => intro seen; simp [pass, hcd]
                  | cons z zs ih =>
                      intro seen
                      cases z with
                      | other => simpa [pass] using ih seen
                      | raw f => simp only [List.cons_append, pass, ih]
                exact this xs seen
  unfold emit
  rw [key true xs [] (.inr h)]
  cases pass true [] (xs ++ ys) with
  | mk ds seen => simp only [key false xs seen (.inr h)]

/-- C181 refuted: of several sections `#ifdef X` .. `#endif` only the first is closed: the output has
every `#ifdef` and one `#endif`. -/
theorem conditionals_violated (xs : List (List Byte)) (hn : xs.Nodup) (h2 : 2 ≤ xs.length) :
    ∃ ds : List (List Byte), emit (xs.flatMap fun x => [Node.raw (ifdef x), .raw endif]) = ds.map .raw ++ [.structs] ∧
      ds.count endif = 1 ∧ ∀ x ∈ xs, ds.count (ifdef x) = 1 := by
  have hi : ∀ x, isDir (ifdef x) = true := by
    intro x
    simp [isDir, ifdef, ascii, blank]
  have he : isDir endif = true := by decide
  have hr : raws (xs.flatMap fun x => [Node.raw (ifdef x), .raw endif]) = xs.flatMap fun x => [ifdef x, endif] := by
    clear hn h2
    induction xs with
    | nil => rfl
    | cons x xs ih => simp [List.flatMap_cons, raws, ih]
  obtain ⟨ds, os, e, s1, s2, nd, hm⟩ := emit_once (xs.flatMap fun x => [Node.raw (ifdef x), .raw endif])
  rw [hr] at s1 s2 hm
  have ho : os = [] := by
    have hf : (xs.flatMap fun x => [ifdef x, endif]).filter (fun c => !isDir c) = [] := by
      rw [List.filter_eq_nil_iff]
      intro c hc
      rw [List.mem_flatMap] at hc
      obtain ⟨x, _, hx⟩ := hc
      simp only [List.mem_cons, List.not_mem_nil, or_false] at hx
      rcases hx with rfl | rfl
      · simp [hi]
      · simp [he]
    rw [hf] at s2
    exact List.sublist_nil.mp s2
  subst ho
  rw [List.append_nil] at nd hm
  refine ⟨ds, by simpa using e, ?_, ?_⟩
  · obtain ⟨x, hx⟩ : ∃ x, x ∈ xs := by
      cases xs with
      | nil => simp at h2
      | cons x xs => exact ⟨x, by simp⟩
    exact nd.count (a := endif) |>.trans (if_pos ((hm _).mp (List.mem_flatMap.mpr ⟨x, hx, by simp⟩)))
  · intro x hx
    exact nd.count (a := ifdef x) |>.trans (if_pos ((hm _).mp (List.mem_flatMap.mpr ⟨x, hx, by simp⟩)))

/-- C181 refuted: a raw block between `#ifdef` and `#endif` is emitted behind both: it is compiled
whether or not the condition holds. -/
theorem guarded_block_violated (x body : List Byte) (hb : isDir body = false) :
    emit [.raw (ifdef x), .raw body, .raw endif] = [.raw (ifdef x), .raw endif, .structs, .raw body] := by
  have hi : isDir (ifdef x) = true := by
    simp [isDir, ifdef, ascii, blank]
  have he : isDir endif = true := by decide
  have n1 : endif ≠ ifdef x := by
    intro e
    have := congrArg (fun l => l[1]?) e
    simp only [endif, ifdef, ascii] at this
    revert this
    simp
  have n2 : body ≠ endif := by rintro rfl; rw [he] at hb; cases hb
  have n3 : body ≠ ifdef x := by rintro rfl; rw [hi] at hb; cases hb
  simp [emit, pass, hi, he, hb, n1, n2, n3]

/-- C181 refuted: a raw block at top level that begins with a directive is put in front of the struct
definitions, except if its first line ends in a carriage return: then it is put behind them. -/
theorem crlf_block_violated (c : List Byte) :
    emit [.raw (10 :: 35 :: c)] = [.raw (10 :: 35 :: c), .structs] ∧
    emit [.raw (13 :: 10 :: 35 :: c)] = [.structs, .raw (13 :: 10 :: 35 :: c)] := by
  constructor <;> simp [emit, pass, isDir, blank, List.dropWhile]

/-- A program with a directive, a function and a raw block -/
example : emit [.raw (ascii "#define A 1\n"), .other, .raw (ascii " int f(void); ")]
    = [.raw (ascii "#define A 1\n"), .structs, .raw (ascii " int f(void); ")] := by decide +kernel

/-- `raw { if (x) { y(); } }` -/
example : rawTop [⟨[32], .other, ascii "if"⟩, ⟨[32], .other, ascii "x"⟩, ⟨[32], .open_, [123]⟩, ⟨[], .other, ascii "y"⟩,
    ⟨[32], .close, [125]⟩, ⟨[10], .close, [125]⟩] = .ok (ascii " if x {y }\n", []) ∧
    Balanced [⟨[32], .other, ascii "if"⟩, ⟨[32], .other, ascii "x"⟩, ⟨[32], .open_, [123]⟩, ⟨[], .other, ascii "y"⟩,
      ⟨[32], .close, [125]⟩] :=
  ⟨by rfl, .tok rfl (.tok rfl (.braces (a := [⟨[], .other, ascii "y"⟩]) rfl rfl (.tok rfl .nil) .nil))⟩

end Verif.RawBlock
