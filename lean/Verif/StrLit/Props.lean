import Verif.StrLit.Interp

/-!
# Strings: properties C31, C32, C55
-/

namespace Verif.StrLit

open Spec
open Verif.Str (Byte)

/-! ## String literals -/

/-- C31: the C text of a string without `{` is one literal, whose value is that of the body; it
contains no newline before its closing quote and is not ended by an inner one. -/
theorem string_value (body v : List Byte) (h : Body body v) (rest : List Byte) :
    CStr (strText body ++ rest) v (splice rest) := by
  refine ⟨escape body ++ 34 :: splice rest, ?_, body_clit h _⟩
  simp only [strText, lit, List.cons_append, List.append_assoc, List.nil_append]
  rw [splice_cons (by decide), splice_append _ (body_no_nl h)]

theorem string_value_exact (body v : List Byte) (h : Body body v) : CStr (strText body) v [] := by
  simpa [splice] using string_value body v h []

/-- C31: and it has no other value. -/
theorem string_value_unique (body v v' rest : List Byte) (h : Body body v)
    (h' : CStr (strText body) v' rest) : v' = v ∧ rest = [] := by
  obtain ⟨h1, h2⟩ := (string_value_exact body v h).det h'
  exact ⟨h1.symm, h2.symm⟩

theorem clit_clean (x : List Byte) (h1 : (92 : Byte) ∉ x) (h2 : (34 : Byte) ∉ x)
    (h3 : (10 : Byte) ∉ x) (rest : List Byte) : CLit (x ++ 34 :: rest) x rest := by
  induction x with
  | nil => exact .close rest
  | cons c x ih =>
    simp only [List.mem_cons, not_or] at h1 h2 h3
    exact .raw (Ne.symm h1.1) (Ne.symm h2.1) (Ne.symm h3.1) (ih h1.2 h2.2 h3.2)

theorem cstr_clean (x : List Byte) (h1 : (92 : Byte) ∉ x) (h2 : (34 : Byte) ∉ x)
    (h3 : (10 : Byte) ∉ x) (rest : List Byte) :
    CStr (34 :: (x ++ 34 :: rest)) x (splice rest) :=
  ⟨x ++ 34 :: splice rest, by rw [splice_cons (by decide), splice_append x h3],
    clit_clean x h1 h2 h3 _⟩

theorem splice_clean (x : List Byte) (h : (92 : Byte) ∉ x) : splice x = x := by
  induction x with
  | nil => rfl
  | cons c x ih =>
    simp only [List.mem_cons, not_or] at h
    rw [splice_cons (Ne.symm h.1), ih h.2]

/-- C31: a raw string without backslash, double quote and newline is its body.  Missing: those. -/
theorem raw_value_partial (body : List Byte) (h1 : (92 : Byte) ∉ body) (h2 : (34 : Byte) ∉ body)
    (h3 : (10 : Byte) ∉ body) :
    CStr (rawText false body) body [] ∧ CStrs 2 (rawText true body) body [] := by
  constructor
  · simpa [rawText, lit, splice] using cstr_clean body h1 h2 h3 []
  · have e1 : rawText true body = 34 :: ([] ++ 34 :: (34 :: (body ++ 34 :: [34, 34]))) := by
      simp [rawText, lit]
    have s2 : splice (34 :: (body ++ 34 :: [34, 34])) = 34 :: (body ++ 34 :: [34, 34]) :=
      splice_clean _ (by simp [h1])
    refine ⟨[], _, body, e1 ▸ cstr_clean [] (by simp) (by simp) (by simp) _, ?_, rfl⟩
    rw [s2]
    refine ⟨body, _, [], cstr_clean body h1 h2 h3 _, ?_, by simp⟩
    exact ⟨[34], by simp [splice], .close []⟩

/-- C31: a raw string with a backslash is never its body: either its C text is not one literal, or
the value is shorter. -/
theorem raw_backslash_violated (body v : List Byte) (hb : (92 : Byte) ∈ body)
    (h : CStr (rawText false body) v []) : v.length < body.length ∧ v ≠ body := by
  have key : v.length < body.length := by
    obtain ⟨t, h1, h2⟩ := h
    simp only [rawText, lit, Bool.false_eq_true, if_false] at h1
    rw [splice_cons (by decide)] at h1
    have ht : splice (body ++ [34]) = t := by simpa using h1
    obtain ⟨p, h3, h4, h5⟩ := h2.length
    rw [List.append_nil] at h3
    subst h3
    have h6 := splice_length (body ++ [34])
    rw [ht] at h6
    have h7 := h6.1
    simp only [List.length_append, List.length_singleton] at h7
    rcases h6.2 (by simp [hb]) with h8 | h8
    · have := h5 h8; omega
    · simp only [List.length_append, List.length_singleton] at h8; omega
  exact ⟨key, fun e => by simp [e] at key⟩

theorem clit_newline (x : List Byte) (h1 : (92 : Byte) ∉ x) (h2 : (34 : Byte) ∉ x) (r v rest : List Byte) :
    ¬ CLit (x ++ 10 :: r) v rest := by
  induction x generalizing v with
  | nil =>
    intro h
    cases h with
    | raw _ _ h3 _ => exact h3 rfl
  | cons c x ih =>
    simp only [List.mem_cons, not_or] at h1 h2
    intro h
    cases h with
    | close => exact h2.1 rfl
    | esc _ _ => exact h1.1 rfl
    | raw _ _ _ h' => exact ih h1.2 h2.2 _ h'

/-- C31: a raw string with a newline is no C literal. -/
theorem raw_newline_violated (x y v rest : List Byte) (h1 : (92 : Byte) ∉ x ++ y)
    (h2 : (34 : Byte) ∉ x) : ¬ CStr (rawText false (x ++ 10 :: y)) v rest := by
  rintro ⟨t, h3, h4⟩
  simp only [List.mem_append, not_or] at h1
  rw [splice_clean _ (by simp [rawText, lit, h1])] at h3
  simp only [rawText, lit, Bool.false_eq_true, if_false, List.cons.injEq, true_and] at h3
  subst h3
  rw [List.append_assoc, List.cons_append] at h4
  exact clit_newline x h1.1 h2 _ _ _ h4

/-- C31: a raw string with a double quote (`r'{"key": 1}'`, the example of the manual) ends there, and
text is left over. -/
theorem raw_quote_violated (x y v rest : List Byte) (h1 : (92 : Byte) ∉ x ++ y)
    (h2 : (34 : Byte) ∉ x) (h3 : (10 : Byte) ∉ x)
    (h : CStr (rawText false (x ++ 34 :: y)) v rest) : v = x ∧ rest = y ++ [34] := by
  simp only [List.mem_append, not_or] at h1
  have e : rawText false (x ++ 34 :: y) = 34 :: (x ++ 34 :: (y ++ [34])) := by
    simp [rawText, lit]
  rw [e] at h
  obtain ⟨a, b⟩ := (cstr_clean x h1.1 h2 h3 _).det h
  rw [splice_clean _ (by simp [h1.2])] at b
  exact ⟨a.symm, b.symm⟩

/-- C31: a string in three quotes that ends in a backslash becomes a literal without end. -/
theorem multi_backslash_violated (x v rest : List Byte) (h : (92 : Byte) ∉ x) :
    ¬ CStr (strText (x ++ [92])) v rest := by
  have he : ∀ x : List Byte, (92 : Byte) ∉ x → escape (x ++ [92]) = x.flatMap escape1 ++ [92] := by
    intro x hx
    induction x with
    | nil => simp [escape]
    | cons c x ih =>
      simp only [List.mem_cons, not_or] at hx
      rw [List.cons_append, escape_cons (Ne.symm hx.1), ih hx.2]
      simp
  have hn : (10 : Byte) ∉ x.flatMap escape1 ++ [92] := by
    simp only [List.mem_append, List.mem_flatMap, not_or, not_exists, not_and]
    refine ⟨fun c _ => ?_, by decide⟩
    unfold escape1
    split
    · decide
    · rename_i h10
      split
      · decide
      · split
        · decide
        · split
          · decide
          · simpa using fun hh => h10 hh.symm
  have main : ∀ x : List Byte, (92 : Byte) ∉ x → ∀ v, ¬ CLit (x.flatMap escape1 ++ [92, 34]) v rest := by
    intro x hx
    induction x with
    | nil =>
      intro v hc
      cases hc with
      | esc he hc =>
        simp only [esc, simple] at he
        simp at he
        obtain ⟨_, rfl⟩ := he
        cases hc
      | raw h1 _ _ _ => exact h1 rfl
    | cons c x ih =>
      simp only [List.mem_cons, not_or] at hx
      intro v hc
      have ih := ih hx.2
      have hcl : ∃ v', CLit (x.flatMap escape1 ++ [92, 34]) v' rest := by
        simp only [List.flatMap_cons] at hc
        unfold escape1 at hc
        repeat' split at hc
        all_goals simp only [List.cons_append, List.nil_append] at hc
        all_goals
          first
            | (cases hc with
               | esc he hc =>
                 simp only [esc, simple] at he
                 simp at he
                 obtain ⟨_, rfl⟩ := he
                 exact ⟨_, hc⟩
               | raw h1 _ _ _ => exact absurd rfl h1)
            | (cases hc with
               | close => simp at *
               | esc _ _ => exact absurd rfl hx.1
               | raw _ _ _ hc => exact ⟨_, hc⟩)
      obtain ⟨v', hc'⟩ := hcl
      exact ih v' hc'
  rintro ⟨t, h1, h2⟩
  simp only [strText, lit] at h1
  rw [splice_cons (by decide), he x h, splice_append _ hn] at h1
  obtain rfl : _ = t := by simpa using h1
  simp only [splice] at h2
  exact main x h _ h2

/-! ## Interpolated strings -/

theorem takeWhile_nz {v : List Byte} (h : (0 : Byte) ∉ v) : v.takeWhile (· ≠ 0) = v := by
  induction v with
  | nil => rfl
  | cons c v ih =>
    simp only [List.mem_cons, not_or] at h
    rw [List.takeWhile_cons, if_pos (by simp [Ne.symm h.1]), ih h.2]

theorem run_eq (as : List Act) : ∀ b, (∀ a ∈ as, match a with
      | .cat v => (0 : Byte) ∉ v
      | .spr (.txt v) => (0 : Byte) ∉ v
      | .spr (.bool _) => False) →
    let out := as.flatMap fun a => match a with
      | .cat v => v
      | .spr (.txt v) => v
      | .spr (.bool _) => []
    (∀ a ∈ as, match a with | .spr (.txt v) => v.length < capT | _ => True) →
    (b ++ out).length < capB → run b as = .ok (b ++ out) := by
  induction as with
  | nil => intro b _ out _ _; simp [out, run]
  | cons a as ih =>
    intro b hz out ht hl
    have hz' := fun x hx => hz x (List.mem_cons_of_mem _ hx)
    have ht' := fun x hx => ht x (List.mem_cons_of_mem _ hx)
    rcases a with v | v | v
    · have h0 : (0 : Byte) ∉ v := hz (.cat v) (by simp)
      simp only [out, List.flatMap_cons] at hl ⊢
      have hlen : (b ++ v).length < capB := by simp at hl ⊢; omega
      simp only [run, strcat, takeWhile_nz h0, hlen, if_true, Run.ok_bind]
      rw [ih (b ++ v) hz' ht' (by simpa using hl)]
      simp
    · have h0 : (0 : Byte) ∉ v := hz (.spr (.txt v)) (by simp)
      have h1 : v.length < capT := ht (.spr (.txt v)) (by simp)
      simp only [out, List.flatMap_cons] at hl ⊢
      have hlen : (b ++ v).length < capB := by simp at hl ⊢; omega
      simp only [run, strcat, takeWhile_nz h0, hlen, h1, if_true, Run.ok_bind]
      rw [ih (b ++ v) hz' ht' (by simpa using hl)]
      simp
    · exact (hz (.spr (.bool v)) (by simp)).elim

theorem means_emits {ps : List Piece} {os : List Out} (h : Means ps os) (val : List Byte → Val) :
    ∃ as, Emits val ps as := by
  induction h with
  | nil => exact ⟨[], .nil⟩
  | text hb _ ih => obtain ⟨as, h⟩ := ih; exact ⟨_, .text (string_value_exact _ _ hb) h⟩
  | hole _ ih => obtain ⟨as, h⟩ := ih; exact ⟨_, .hole h⟩

theorem render_append (val : List Byte → List Byte) (v : List Byte) (os : List Out) :
    render val (v.map Out.byte ++ os) = v ++ render val os := by
  induction v with
  | nil => rfl
  | cons c v ih => simp [render, ih]

theorem emits_acts {ps : List Piece} {os : List Out} (h : Means ps os) (val : List Byte → List Byte)
    (as : List Act) (he : Emits (fun s => .txt (val s)) ps as) (hz : (0 : Byte) ∉ render val os)
    (ht : ∀ src ∈ holes os, (val src).length < capT) :
    (∀ a ∈ as, match a with
      | .cat v => (0 : Byte) ∉ v
      | .spr (.txt v) => (0 : Byte) ∉ v
      | .spr (.bool _) => False) ∧
    (∀ a ∈ as, match a with | .spr (.txt v) => v.length < capT | _ => True) ∧
    (as.flatMap fun a => match a with
      | .cat v => v
      | .spr (.txt v) => v
      | .spr (.bool _) => []) = render val os := by
  induction h generalizing as with
  | nil => cases he; simp [render]
  | @text s v ps os hb _ ih =>
    rw [render_append, List.mem_append, not_or] at hz
    rw [holes_append] at ht
    cases he with
    | text hc he =>
      obtain ⟨rfl, _⟩ := (string_value_exact _ _ hb).det hc
      obtain ⟨h1, h2, h3⟩ := ih _ he hz.2 ht
      refine ⟨?_, ?_, ?_⟩
      · intro a ha
        rcases List.mem_cons.mp ha with rfl | ha
        · exact hz.1
        · exact h1 a ha
      · intro a ha
        rcases List.mem_cons.mp ha with rfl | ha
        · trivial
        · exact h2 a ha
      · rw [render_append, List.flatMap_cons, h3]
  | @hole src ps os _ ih =>
    simp only [render, List.mem_append, not_or] at hz
    simp only [holes, List.mem_cons, forall_eq_or_imp] at ht
    cases he with
    | hole he =>
      obtain ⟨h1, h2, h3⟩ := ih _ he hz.2 ht.2
      refine ⟨?_, ?_, ?_⟩
      · intro a ha
        rcases List.mem_cons.mp ha with rfl | ha
        · exact hz.1
        · exact h1 a ha
      · intro a ha
        rcases List.mem_cons.mp ha with rfl | ha
        · exact ht.1
        · exact h2 a ha
      · simp only [List.flatMap_cons, h3, render]

/-- C32: an interpolated string compiles, and its statements build the string meant, for all
templates and all values, if the value of each hole has fewer than 128 bytes and the result fewer
than 4096.  Missing: longer ones, formats, NUL bytes. -/
theorem interpolation_partial (t : List Byte) (os : List Out) (val : List Byte → List Byte)
    (h : Interp true t os) (hc : ∀ src ∈ holes os, 58 ∉ src)
    (hz : (0 : Byte) ∉ render val os) (ht : ∀ src ∈ holes os, (val src).length < 128)
    (hl : (render val os).length < 4096) :
    ∃ ps, fstring t = some ps ∧ (∃ as, Emits (fun s => .txt (val s)) ps as) ∧
      ∀ as, Emits (fun s => .txt (val s)) ps as → run [] as = .ok (render val os) := by
  obtain ⟨ps, h1, h2⟩ := segments_means (t.length + 1) t os h hc (by omega)
  refine ⟨ps, h1, means_emits h2 _, fun as he => ?_⟩
  obtain ⟨a1, a2, a3⟩ := emits_acts h2 val as he hz ht
  have := run_eq as [] a1 a2 (by rw [a3]; exact hl)
  rw [this, a3]
  rfl

/-- C32: a string without any brace is the same with and without interpolation; one with `}}` but no
`{` is not interpolated, and keeps both braces. -/
theorem closing_braces_violated (x y : List Byte) (h1 : (123 : Byte) ∉ x ++ y) (v w : List Byte)
    (hx : Body x v) (hy : Body y w) :
    interpolated (x ++ 125 :: 125 :: y) = false ∧
      ∀ u, Body (x ++ 125 :: 125 :: y) u → u.length = v.length + w.length + 2 := by
  simp only [List.mem_append, not_or] at h1
  refine ⟨by simp [interpolated, h1], ?_⟩
  have app : ∀ {x v : List Byte}, Body x v → ∀ u, Body (x ++ 125 :: 125 :: y) u →
      ∃ u', u = v ++ u' ∧ Body (125 :: 125 :: y) u' := by
    intro x v hx
    induction hx with
    | nil => exact fun u hu => ⟨u, rfl, hu⟩
    | @esc r r' v vs he _ ih =>
      intro u hu
      cases hu with
      | esc he' hu =>
        rw [show r.append (125 :: 125 :: y) = r ++ 125 :: 125 :: y from rfl,
          esc_append r (.inr ⟨_, .inr rfl⟩), he] at he'
        simp only [Option.map_some, Option.some.injEq, Prod.mk.injEq] at he'
        obtain ⟨rfl, rfl⟩ := he'
        obtain ⟨u', rfl, h⟩ := ih _ hu
        exact ⟨u', rfl, h⟩
      | raw hc _ => exact absurd rfl hc
    | raw hc _ ih =>
      intro u hu
      cases hu with
      | esc _ _ => exact absurd rfl hc
      | raw _ hu =>
        obtain ⟨u', rfl, h⟩ := ih _ hu
        exact ⟨u', rfl, h⟩
  have det : ∀ {y w : List Byte}, Body y w → ∀ w', Body y w' → w = w' := by
    intro y w hy
    induction hy with
    | nil => intro w' h; cases h; rfl
    | esc he _ ih =>
      intro w' h
      cases h with
      | esc he' h =>
        rw [he] at he'
        simp only [Option.some.injEq, Prod.mk.injEq] at he'
        obtain ⟨rfl, rfl⟩ := he'
        rw [ih _ h]
      | raw hc _ => exact absurd rfl hc
    | raw hc _ ih =>
      intro w' h
      cases h with
      | esc _ _ => exact absurd rfl hc
      | raw _ h => rw [ih _ h]
  intro u hu
  obtain ⟨u', rfl, h⟩ := app hx u hu
  cases h with
  | raw _ h =>
    cases h with
    | raw _ h => rw [det hy _ h]; simp; omega

/-- C32: a value of 128 bytes or more is written beyond `_t`. -/
theorem hole_overflow_violated (b v : List Byte) (as : List Act) (h : 128 ≤ v.length) :
    run b (.spr (.txt v) :: as) = .ub := by
  have : ¬ v.length < capT := by simp only [capT]; omega
  simp only [run, this, if_false]

/-- C32: a result of 4096 bytes or more is written beyond `_b`. -/
theorem result_overflow_violated (as : List Act) (hz : ∀ a ∈ as, match a with
      | .cat v => (0 : Byte) ∉ v
      | .spr (.txt v) => (0 : Byte) ∉ v
      | .spr (.bool _) => False) : ∀ b,
    4096 ≤ (b ++ as.flatMap fun a => match a with
      | .cat v => v
      | .spr (.txt v) => v
      | .spr (.bool _) => []).length → b.length < 4096 → run b as = .ub := by
  induction as with
  | nil => intro b h h'; simp at h; omega
  | cons a as ih =>
    intro b h h'
    have ih := ih fun x hx => hz x (List.mem_cons_of_mem _ hx)
    rcases a with v | v | v
    · have h0 : (0 : Byte) ∉ v := hz (.cat v) (by simp)
      simp only [run, strcat, takeWhile_nz h0]
      split
      · rename_i hlt
        simp only [Run.ok_bind]
        exact ih _ (by simpa using h) hlt
      · rfl
    · have h0 : (0 : Byte) ∉ v := hz (.spr (.txt v)) (by simp)
      simp only [run, strcat, takeWhile_nz h0]
      split
      · split
        · rename_i hlt
          simp only [Run.ok_bind]
          exact ih _ (by simpa using h) hlt
        · rfl
      · rfl
    · exact (hz (.spr (.bool v)) (by simp)).elim

/-- C32: a `bool` in a hole is passed to `%s`. -/
theorem bool_hole_violated (b : List Byte) (x : Bool) (as : List Act) :
    run b (.spr (.bool x) :: as) = .ub := rfl

/-- C32: the `:` of a ternary in a hole is taken for a format: the second operand becomes the format
of the whole. -/
theorem ternary_hole_violated (c a b : List Byte) (hc : (58 : Byte) ∉ c ++ a) (hc' : (123 : Byte) ∉ c ++ a)
    (hc2 : (125 : Byte) ∉ c ++ a) (hb : (125 : Byte) ∉ b) (hb' : ∀ r, b ≠ 58 :: r) (hb1 : b ≠ [])
    (hne : c ≠ []) :
    fstring (123 :: ((c ++ 63 :: (a ++ 58 :: b)) ++ [125])) =
      some [.hole (c ++ 63 :: (a ++ 58 :: b)) (some b)] := by
  have col : ∀ x : List Byte, (58 : Byte) ∉ x → (123 : Byte) ∉ x → colon 1 (x ++ 58 :: b) = some b := by
    intro x h1 h2
    induction x with
    | nil =>
      cases b with
      | nil => exact absurd rfl hb1
      | cons e r =>
        have : e ≠ 58 := fun hh => hb' r (by rw [hh])
        simp [colon, this]
    | cons d x ih =>
      simp only [List.mem_cons, not_or] at h1 h2
      have : ∃ e y, x ++ 58 :: b = e :: y := by cases x <;> exact ⟨_, _, rfl⟩
      obtain ⟨e, y, he⟩ := this
      have ih := ih h1.2 h2.2
      rw [he] at ih
      rw [List.cons_append, he]
      simp [colon, Ne.symm h1.1, Ne.symm h2.1, ih]
  simp only [List.mem_append, not_or] at hc hc' hc2
  have e : c ++ 63 :: (a ++ 58 :: b) = (c ++ 63 :: a) ++ 58 :: b := by simp
  have h125 : (125 : Byte) ∉ c ++ 63 :: (a ++ 58 :: b) := by simp [hc2, hb]
  have hcl : colon 1 (c ++ 63 :: (a ++ 58 :: b)) = some b := by
    rw [e]; exact col _ (by simp [hc]) (by simp [hc'])
  unfold fstring
  cases c with
  | nil => exact absurd rfl hne
  | cons d c =>
    simp only [List.mem_cons, not_or] at hc'
    have hd : d ≠ 123 := Ne.symm hc'.1.1
    have hc2n : cut2 (123 :: (d :: c ++ 63 :: (a ++ 58 :: b) ++ [125])) = none ∨
        ∃ q, cut2 (123 :: (d :: c ++ 63 :: (a ++ 58 :: b) ++ [125])) = some q := by
      cases cut2 (123 :: (d :: c ++ 63 :: (a ++ 58 :: b) ++ [125])) <;> simp
    have hf : (cut2 (123 :: (d :: c ++ 63 :: (a ++ 58 :: b) ++ [125]))).filter
        (fun q => decide (q.1.length < ([] : List Byte).length)) = none :=
      filter_none fun q _ => by simp
    have hcut : cut 123 (123 :: (d :: c ++ 63 :: (a ++ 58 :: b) ++ [125])) =
        some ([], d :: c ++ 63 :: (a ++ 58 :: b) ++ [125]) := by simp [cut]
    have hcut' : cut 125 (d :: c ++ 63 :: (a ++ 58 :: b) ++ [125]) =
        some (d :: c ++ 63 :: (a ++ 58 :: b), []) := cut_append _ _ h125
    rw [show (123 :: (d :: c ++ 63 :: (a ++ 58 :: b) ++ [125])).length + 1 =
      ((d :: c ++ 63 :: (a ++ 58 :: b) ++ [125]).length + 1) + 1 from rfl]
    rw [segments, if_neg (by simp)]
    rw [hcut]
    simp only [hf]
    split
    · rename_i r' hh
      simp only [List.cons_append, List.cons.injEq] at hh
      exact absurd hh.1 hd
    · rw [hcut']
      simp only [hcl, segments, if_true, Option.map_some, seg1, List.nil_append]

/-! ## The buffer is static -/

mutual
theorem frameE : (e : FExpr) → ∀ (m : Bufs) (j : Nat), j ∉ FExpr.sites e → evalE e m j = m j
  | .mk i ps, m, j, h => by
    simp only [FExpr.sites, List.mem_cons, not_or] at h
    simp only [evalE]
    rw [frameP i ps _ j h.1 h.2]
    simp [set, h.1]
theorem frameP (i : Nat) : (ps : FParts) → ∀ (m : Bufs) (j : Nat), j ≠ i → j ∉ FParts.sites ps →
    evalP i ps m j = m j
  | .nil, m, j, _, _ => rfl
  | .text v ps, m, j, h, h' => by
    simp only [FParts.sites] at h'
    simp only [evalP]
    rw [frameP i ps _ j h h']
    simp [set, h]
  | .var v ps, m, j, h, h' => by
    simp only [FParts.sites] at h'
    simp only [evalP]
    rw [frameP i ps _ j h h']
    simp [set, h]
  | .sub (.mk k qs) ps, m, j, h, h' => by
    simp only [FParts.sites, List.mem_append, not_or] at h'
    simp only [evalP]
    rw [frameP i ps _ j h h'.2]
    simp only [set, h, if_false]
    exact frameE (.mk k qs) m j h'.1
end

mutual
theorem valueE : (e : FExpr) → FExpr.fresh e → ∀ m, evalE e m e.site = FExpr.value e
  | .mk i ps, h, m => by
    simp only [FExpr.fresh] at h
    simp only [evalE, FExpr.site, FExpr.value]
    rw [valueP i ps h.1 h.2]
    simp [set]
theorem valueP (i : Nat) : (ps : FParts) → i ∉ FParts.sites ps → FParts.fresh ps → ∀ m,
    evalP i ps m i = m i ++ FParts.value ps
  | .nil, _, _, m => by simp [evalP, FParts.value]
  | .text v ps, h, h', m => by
    simp only [FParts.sites] at h
    simp only [FParts.fresh] at h'
    simp only [evalP, FParts.value]
    rw [valueP i ps h h']
    simp [set]
  | .var v ps, h, h', m => by
    simp only [FParts.sites] at h
    simp only [FParts.fresh] at h'
    simp only [evalP, FParts.value]
    rw [valueP i ps h h']
    simp [set]
  | .sub (.mk j qs) ps, h, h', m => by
    simp only [FParts.sites, List.mem_append, not_or] at h
    have h1 : FExpr.fresh (.mk j qs) ∧ FParts.fresh ps := by simpa only [FParts.fresh] using h'
    simp only [evalP]
    have e : FParts.value (.sub (.mk j qs) ps) = FExpr.value (.mk j qs) ++ FParts.value ps := by
      simp only [FParts.value]
    rw [valueP i ps h.2 h1.2, e, ← valueE (.mk j qs) h1.1 m]
    simp only [set, if_true, FExpr.site]
    rw [frameE (.mk j qs) m i h.1, List.append_assoc]
end

/-- C32: nested interpolated strings give the string meant, if no place is evaluated inside its own
holes; the buffers of other places do not change.  Missing: recursion. -/
theorem nested_partial (e : FExpr) (h : FExpr.fresh e) (m : Bufs) :
    evalE e m e.site = FExpr.value e ∧ ∀ j, j ∉ FExpr.sites e → evalE e m j = m j :=
  ⟨valueE e h m, frameE e m⟩

/-- C32: in a recursive function the inner evaluation overwrites what the outer one has built. -/
theorem recursion_violated (i : Nat) (a b : List Byte) (m : Bufs) :
    evalE (.mk i (.text a (.sub (.mk i (.text b .nil)) .nil))) m i = b ++ b ∧
      FExpr.value (.mk i (.text a (.sub (.mk i (.text b .nil)) .nil))) = a ++ b := by
  simp [evalE, evalP, set, FExpr.value, FParts.value]

/-- C32: the string returned by one evaluation changes when the same place is evaluated again. -/
theorem alias_violated (i : Nat) (ps qs : FParts) (m : Bufs) (hp : FExpr.fresh (.mk i ps))
    (hq : FExpr.fresh (.mk i qs)) (hne : FParts.value ps ≠ FParts.value qs) :
    let m1 := evalE (.mk i ps) m
    let m2 := evalE (.mk i qs) m1
    m1 i = FParts.value ps ∧ m2 i ≠ FParts.value ps := by
  have h1 := valueE (.mk i ps) hp m
  have h2 := valueE (.mk i qs) hq (evalE (.mk i ps) m)
  simp only [FExpr.site, FExpr.value] at h1 h2
  exact ⟨h1, by rw [h2]; exact Ne.symm hne⟩

/-! ## Printing -/

theorem means_prints {ps : List Piece} {os : List Out} (h : Means ps os) (val : List Byte → List Byte) :
    Prints val ps (render val os) := by
  induction h with
  | nil => exact .nil
  | text hb _ ih => rw [render_append]; exact .text (string_value_exact _ _ hb) ih
  | hole _ ih => exact .hole ih

/-- C55: printing a string writes its text and the values of its holes in order, if the string has
no doubled braces and no backslash in a hole, and the generated statement fits into 8192 bytes.
Missing: those. -/
theorem print_partial (t : List Byte) (os : List Out) (val : List Byte → List Byte)
    (code : List Byte → Nat) (nl : Bool) (h : Interp false t os) (hb : ∀ src ∈ holes os, 92 ∉ src)
    (hl : ∀ ps, printParts t = .ok ps → genLen code ps < 8150) :
    ∃ ps, printGen code nl t = .ok ps ∧ Prints val ps (render val os) := by
  obtain ⟨ps, h1, h2⟩ := print_means (t.length + 1) t os h hb (by omega)
  have h3 := hl ps h1
  have h1' : printParts t = .ok ps := h1
  refine ⟨ps, ?_, means_prints h2 val⟩
  simp only [printGen, h1', Run.ok_bind, capGen]
  cases nl <;> simp only [Bool.false_eq_true, if_false, if_true] <;> rw [if_pos (by omega)]

/-- C55: `{{` and `}}` are not braces when printing: what stands between them is taken for an
expression in braces. -/
theorem print_braces_violated (x src : List Byte) (h1 : (123 : Byte) ∉ x) (h2 : (123 : Byte) ∉ src)
    (h3 : (125 : Byte) ∉ src) (h4 : (92 : Byte) ∉ src) :
    printParts (x ++ 123 :: 123 :: (src ++ [125, 125])) =
      .ok (seg1 x ++ [.hole (123 :: (src ++ [125])) none]) := by
  have hcl : ∀ s : List Byte, (123 : Byte) ∉ s → (125 : Byte) ∉ s →
      closing 2 (s ++ [125, 125]) = some (s ++ [125], []) := by
    intro s h1 h2
    induction s with
    | nil => simp [closing]
    | cons c s ih =>
      simp only [List.mem_cons, not_or] at h1 h2
      simp [closing, Ne.symm h1.1, Ne.symm h2.1, ih h1.2 h2.2]
  have hc1 : closing 1 (123 :: (src ++ [125, 125])) = some (123 :: (src ++ [125]), []) := by
    simp [closing, hcl src h2 h3]
  have hne : x ++ 123 :: 123 :: (src ++ [125, 125]) ≠ [] := by simp
  have hu : unquote (123 :: (src ++ [125])) = 123 :: (src ++ [125]) := unquote_id _ (by simp [h4])
  unfold printParts
  rw [printSegments, if_neg hne, cut_append x _ h1]
  simp only [hc1]
  have hlen : (x ++ 123 :: 123 :: (src ++ [125, 125])).length =
      (x ++ 123 :: (src ++ [125, 125])).length + 1 := by
    simp only [List.length_append, List.length_cons]; omega
  rw [hlen]
  simp only [printSegments, if_true, hu]

/-- C55: a hole that is not closed makes the compiler read behind the end of the string. -/
theorem print_unclosed_violated (x src : List Byte) (h1 : (123 : Byte) ∉ x)
    (h3 : (125 : Byte) ∉ src) : printParts (x ++ 123 :: src) = .ub := by
  have hcl : ∀ s : List Byte, (125 : Byte) ∉ s → ∀ d, closing d s = none := by
    intro s h
    induction s with
    | nil => intro d; rfl
    | cons c s ih =>
      simp only [List.mem_cons, not_or] at h
      intro d
      simp only [closing, ih h.2, Option.map_none]
      simp [Ne.symm h.1]
  have hne : x ++ 123 :: src ≠ [] := by simp
  unfold printParts
  rw [printSegments, if_neg hne, cut_append x _ h1]
  simp only [hcl src h3]

/-- C55: a text of 8141 bytes or more overflows the buffer of the compiler. -/
theorem print_long_violated (x : List Byte) (code : List Byte → Nat) (nl : Bool)
    (h1 : (123 : Byte) ∉ x) (hx : 8141 ≤ x.length) : printGen code nl x = .ub := by
  have hne : x ≠ [] := by rintro rfl; simp at hx
  have hlen : ∀ y : List Byte, y.length ≤ (escape y).length := by
    intro y
    induction y using escape.induct with
    | case1 => simp
    | case2 => simp [escape]
    | case3 c hc =>
      simp only [escape, if_neg hc, escape1]
      repeat' split
      all_goals simp
    | case4 d r ih => simp only [escape, if_true, List.length_cons]; omega
    | case5 c d r hc ih =>
      simp only [escape, if_neg hc, List.length_append, List.length_cons] at ih ⊢
      have : 1 ≤ (escape1 c).length := by
        unfold escape1
        repeat' split
        all_goals simp
      omega
  have hp : printParts x = .ok [.text x] := by
    unfold printParts
    simp only [printSegments, if_neg hne, cut_none x h1]
  have := hlen x
  simp only [printGen, hp, Run.ok_bind, genLen, capGen]
  cases nl <;> simp only [Bool.false_eq_true, if_false, if_true] <;> rw [if_neg (by omega)]

/-! ## Cases -/

section Cases

/-- `a\x41"\n` with a real newline and tab: value -/
example : Body [97, 92, 120, 52, 49, 34, 92, 110, 10, 9] [97, 65, 34, 10, 10, 9] :=
  .raw (by decide) (.esc (r' := [34, 92, 110, 10, 9]) rfl (.raw (by decide)
    (.esc (r' := [10, 9]) rfl (.raw (by decide) (.raw (by decide) .nil)))))

/-- and its C text -/
example : strText [97, 92, 120, 52, 49, 34, 92, 110, 10, 9] =
    [34, 97, 92, 120, 52, 49, 92, 34, 92, 110, 92, 110, 92, 116, 34] := by decide

/-- `r"\n"` is one literal in C, of one byte -/
example : CStr (rawText false [92, 110]) [10] [] :=
  ⟨[92, 110, 34], by decide, .esc (r' := [34]) rfl (.close [])⟩

/-- `v={x}, {{{y}}}` -/
def tmpl : List Byte := [118, 61, 123, 120, 125, 44, 123, 123, 123, 121, 125, 125, 125]

example : Interp true tmpl [.byte 118, .byte 61, .hole [120], .byte 44, .byte 123, .hole [121],
    .byte 125] := by
  refine .raw (by decide) (by decide) (by decide) (.raw (by decide) (by decide) (by decide) ?_)
  refine .hole (src := [120]) (by decide) (by decide) (by decide) ?_
  refine .raw (by decide) (by decide) (by decide) (.lbrace rfl ?_)
  exact .hole (src := [121]) (by decide) (by decide) (by decide) (.rbrace rfl .nil)

example : fstring tmpl = some [.text [118, 61], .hole [120] none, .text [44], .text [123],
    .hole [121] none, .text [125]] := by decide +kernel

/-- `{x:.2f}` -/
example : fstring [123, 120, 58, 46, 50, 102, 125] = some [.hole [120, 58, 46, 50, 102] (some [46, 50, 102])] := by
  decide +kernel

/-- two nested places -/
example : FExpr.fresh (.mk 0 (.text [97] (.sub (.mk 1 (.var [98] .nil)) .nil))) := by
  simp [FExpr.fresh, FParts.fresh, FParts.sites, FExpr.sites]

/-- printing `v={x}` -/
example : Interp false [118, 61, 123, 120, 125] [.byte 118, .byte 61, .hole [120]] :=
  .raw (by decide) (by decide) (by decide) (.raw (by decide) (by decide) (by decide)
    (.hole (src := [120]) (by decide) (by decide) (by decide) .nil))

example : printGen (fun _ => 40) true [118, 61, 123, 120, 125] =
    .ok [.text [118, 61], .hole [120] none] := by decide +kernel

end Cases

end Verif.StrLit
