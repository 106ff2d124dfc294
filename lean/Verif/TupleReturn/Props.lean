import Verif.TupleReturn.Model

/-!
# Returned tuples: which are read as literals of the return type, and where not
-/

namespace Verif.TupleReturn
open Spec

theorem isTupleName_iff (t : String) : isTupleName t = true ↔ IsTuple t := by
  unfold isTupleName IsTuple
  rw [List.isPrefixOf_iff_prefix]
  constructor
  · rintro ⟨r, hr⟩
    exact ⟨r, hr.symm⟩
  · rintro ⟨r, hr⟩
    exact ⟨r, hr.symm⟩

theorem scan_balanced {a : List Tok} (h : Balanced a) : ∀ (d : Nat) (r : List Tok), scan (d + 2) (a ++ r) = scan (d + 2) r := by
  induction h with
  | nil => intro d r; rfl
  | word s _ ih => intro d r; simpa [scan] using ih d r
  | comma _ ih => intro d r; simpa [scan] using ih d r
  | @paren a b _ _ ih1 ih2 =>
    intro d r
    have e : (Tok.lp :: (a ++ Tok.rp :: b)) ++ r = Tok.lp :: (a ++ (Tok.rp :: (b ++ r))) := by simp
    rw [e]
    show scan (d + 1 + 2) _ = _
    rw [ih1 (d + 1)]
    show (if d + 1 + 2 - 1 = 0 then false else scan (d + 1 + 2 - 1) (b ++ r)) = _
    rw [if_neg (by omega)]
    exact ih2 d r

theorem scan_item {a : List Tok} (h : Item a) : ∀ (r : List Tok), scan 1 (a ++ r) = scan 1 r := by
  induction h with
  | nil => intro r; rfl
  | word s _ ih => intro r; simpa [scan] using ih r
  | @paren a b h1 _ ih =>
    intro r
    have e : (Tok.lp :: (a ++ Tok.rp :: b)) ++ r = Tok.lp :: (a ++ (Tok.rp :: (b ++ r))) := by simp
    rw [e]
    show scan (0 + 2) _ = _
    rw [scan_balanced h1 0]
    exact ih r

theorem take_balanced {a : List Tok} (h : Balanced a) : ∀ (d : Nat) (r : List Tok),
    takeElem (d + 1) (a ++ r) = (a ++ (takeElem (d + 1) r).1, (takeElem (d + 1) r).2) := by
  induction h with
  | nil => intro d r; rfl
  | word s _ ih => intro d r; simp [takeElem, ih d r]
  | comma _ ih => intro d r; simp [takeElem, ih d r]
  | @paren a b _ _ ih1 ih2 =>
    intro d r
    have e : (Tok.lp :: (a ++ Tok.rp :: b)) ++ r = Tok.lp :: (a ++ (Tok.rp :: (b ++ r))) := by simp
    rw [e]
    simp [takeElem, ih1 (d + 1), ih2 d r]

theorem take_item {a : List Tok} (h : Item a) : ∀ (r : List Tok),
    takeElem 0 (a ++ r) = (a ++ (takeElem 0 r).1, (takeElem 0 r).2) := by
  induction h with
  | nil => intro r; rfl
  | word s _ ih => intro r; simp [takeElem, ih r]
  | @paren a b h1 _ ih =>
    intro r
    have e : (Tok.lp :: (a ++ Tok.rp :: b)) ++ r = Tok.lp :: (a ++ (Tok.rp :: (b ++ r))) := by simp
    rw [e]
    simp [takeElem, take_balanced h1 0, ih r]

/-- An element is not taken for a comma or the closing parenthesis. -/
theorem elems_item {e : List Tok} (hn : e ≠ []) (h : Item e) (n : Nat) (r : List Tok) :
    elems (n + 1) (e ++ r) = (elems n (takeElem 0 r).2).map fun x => ((e ++ (takeElem 0 r).1) :: x.1, x.2) := by
  cases h with
  | nil => exact absurd rfl hn
  | @word s b h1 =>
    have := take_item (Item.word s h1) r
    simp only [List.cons_append] at this ⊢
    simp only [elems, this]
  | @paren a b h1 h2 =>
    have := take_item (Item.paren h1 h2) r
    simp only [List.cons_append] at this ⊢
    simp only [elems, this]

theorem elems_sep : ∀ (es : List (List Tok)), (∀ e ∈ es, e ≠ [] ∧ Item e) → ∀ (n : Nat) (r : List Tok),
    2 * es.length + 1 ≤ n → elems n (sep es ++ .rp :: r) = some (es, r)
  | [], _, n, r, hn => by
    obtain ⟨m, rfl⟩ : ∃ m, n = m + 1 := ⟨n - 1, by omega⟩
    rfl
  | [e], h, n, r, hn => by
    obtain ⟨m, rfl⟩ : ∃ m, n = m + 1 + 1 := ⟨n - 2, by simp at hn; omega⟩
    obtain ⟨h1, h2⟩ := h e (by simp)
    show elems (m + 1 + 1) (e ++ .rp :: r) = _
    rw [elems_item h1 h2]
    simp [takeElem, elems]
  | e :: e' :: es, h, n, r, hn => by
    obtain ⟨m, rfl⟩ : ∃ m, n = m + 1 + 1 := ⟨n - 2, by simp at hn; omega⟩
    obtain ⟨h1, h2⟩ := h e (by simp)
    have ih := elems_sep (e' :: es) (fun x hx => h x (List.mem_cons_of_mem _ hx)) m r (by simp at hn ⊢; omega)
    have e1 : sep (e :: e' :: es) ++ Tok.rp :: r = e ++ (Tok.comma :: (sep (e' :: es) ++ Tok.rp :: r)) := by simp [sep]
    rw [e1, elems_item h1 h2]
    simp [takeElem, elems, ih]

theorem sep_length : ∀ (es : List (List Tok)), (∀ e ∈ es, e ≠ []) → es ≠ [] → 2 * es.length ≤ (sep es).length + 1
  | [], _, h => absurd rfl h
  | [e], h, _ => by
    have := List.length_pos_iff.2 (h e (by simp))
    simp only [sep, List.length_cons, List.length_nil]; omega
  | e :: e' :: es, h, _ => by
    have ih := sep_length (e' :: es) (fun x hx => h x (List.mem_cons_of_mem _ hx)) (by simp)
    have := List.length_pos_iff.2 (h e (by simp))
    simp only [sep, List.length_append, List.length_cons] at ih ⊢; omega

/-- Two or more elements are seen to be a tuple. -/
theorem scan_sep {e e' : List Tok} {es : List (List Tok)} (h : Item e) (r : List Tok) : scan 1 (sep (e :: e' :: es) ++ r) = true := by
  have e1 : sep (e :: e' :: es) ++ r = e ++ (Tok.comma :: (sep (e' :: es) ++ r)) := by simp [sep]
  rw [e1, scan_item h]
  rfl

/-- **Unfinished**: an opened parenthesis without a comma of its own up to the semicolon is left to the parser of expressions, whatever the statements behind it have. -/
theorem unfinished (cur : Option String) {e : List Tok} (h : Item e) (rest : List Tok) :
    parseReturn cur (.lp :: (e ++ .semi :: rest)) = .expr (.lp :: (e ++ .semi :: rest)) := by
  have hs : scan 1 (e ++ .semi :: rest) = false := by rw [scan_item h]; rfl
  cases cur with
  | none => rfl
  | some t => simp [parseReturn, hs]

/-- `return (a;` with a call behind it -/
example : parseReturn (some "Tuple_int_int") [.lp, .w "a", .semi, .w "f", .lp, .w "b", .comma, .w "c", .rp, .semi] =
    .expr [.lp, .w "a", .semi, .w "f", .lp, .w "b", .comma, .w "c", .rp, .semi] :=
  unfinished _ (.word "a" .nil) _

/-- **Literals**: whatever is behind it, a tuple literal in a function returning a tuple is read with the type of the function, and exactly its elements, in order; what is
behind it is left. -/
theorem literal {t : String} (ht : IsTuple t) {es : List (List Tok)} (h : Plain (.tuple es)) (rest : List Tok) :
    parseReturn (some t) (.lp :: (sep es ++ .rp :: rest)) = .typed t es rest := by
  obtain ⟨h2, h⟩ := h
  match es, h2, h with
  | e :: e' :: es, _, h =>
    have hl := sep_length (e :: e' :: es) (fun x hx => (h x hx).1) (by simp)
    have he := elems_sep (e :: e' :: es) h ((sep (e :: e' :: es) ++ .rp :: rest).length + 1) rest
      (by simp only [List.length_append, List.length_cons] at hl ⊢; omega)
    simp only [parseReturn, (isTupleName_iff t).2 ht, scan_sep (h e (by simp)).2, he, Bool.and_self, if_true]

/-- **Other values**: in a function returning a tuple, or elsewhere, values that are no tuple literals are left to the reader of expressions. -/
theorem other (cur : Option String) {e : List Tok} (h : Plain (.one e)) (rest : List Tok) :
    parseReturn cur (e ++ .semi :: rest) = .expr (e ++ .semi :: rest) := by
  rcases h with rfl | ⟨s, r, rfl⟩ | ⟨a, r, rfl, ha⟩
  · cases cur <;> rfl
  · cases cur <;> rfl
  · cases cur with
    | none => rfl
    | some t =>
      have e1 : (Tok.lp :: (a ++ Tok.rp :: r)) ++ Tok.semi :: rest = Tok.lp :: (a ++ (Tok.rp :: (r ++ Tok.semi :: rest))) := by simp
      have : scan 1 (a ++ (Tok.rp :: (r ++ Tok.semi :: rest))) = false := by rw [scan_item ha]; rfl
      rw [e1]
      simp [parseReturn, this]

theorem not_tuple {cur : Option String} (h : ∀ t, cur = some t → ¬ IsTuple t) (ts : List Tok) : parseReturn cur ts = .expr ts := by
  cases cur with
  | none => rfl
  | some t =>
    have : isTupleName t = false := by
      cases hb : isTupleName t with
      | false => rfl
      | true => exact absurd ((isTupleName_iff t).1 hb) (h t rfl)
    cases ts with
    | nil => rfl
    | cons x r => cases x <;> simp [parseReturn, this]

/-- The type of the function is in force, or there is none that matters. -/
def InForce (f : String) (c : Option String) : Prop := c = some f ∨ (c = none ∧ ¬ IsTuple f)

theorem run_tame (sl : Bool) (f : String) : ∀ (b : Body) (t : String) (s : St), Tame sl f t b → InForce f s.cur → (sl = true → s.slice = true) →
    (run b s).2 = expected t b ∧ InForce f (run b s).1.cur ∧ (sl = true → (run b s).1.slice = true)
  | .done, _, _, _, hc, hs => ⟨rfl, hc, hs⟩
  | .ret (.tuple es) r, t, s, h, hc, hs => by
    obtain ⟨hp, hf, hr⟩ := h
    obtain ⟨h1, h2⟩ := run_tame sl f r t s hr hc hs
    refine ⟨?_, h2⟩
    simp only [run, expected, h1]
    congr 1
    by_cases ht : IsTuple f
    · have hft : f = t := by
        rcases hf with hf | hf
        · exact hf
        · exact absurd ht hf.1
      have hcur : s.cur = some f := by
        rcases hc with hc | hc
        · exact hc
        · exact absurd ht hc.2
      subst hft
      rw [hcur, if_pos ht]
      exact literal ht hp [.semi]
    · have htt : ¬ IsTuple t := by
        rcases hf with hf | hf
        · exact hf ▸ ht
        · exact hf.2
      rw [if_neg htt]
      apply not_tuple
      intro u hu
      rcases hc with hc | hc
      · rw [hc] at hu; injection hu with hu; exact hu ▸ ht
      · rw [hc.1] at hu; cases hu
  | .ret (.one e) r, t, s, h, hc, hs => by
    obtain ⟨hp, hr⟩ := h
    obtain ⟨h1, h2⟩ := run_tame sl f r t s hr hc hs
    refine ⟨?_, h2⟩
    simp only [run, expected, h1, text]
    rw [other s.cur hp []]
  | .loop r, t, s, h, hc, hs => by
    obtain ⟨hl, hr⟩ := h
    show (run r (if s.slice then s else ⟨none, true⟩)).2 = expected t r ∧ InForce f (run r (if s.slice then s else ⟨none, true⟩)).1.cur ∧
      (sl = true → (run r (if s.slice then s else ⟨none, true⟩)).1.slice = true)
    by_cases hb : s.slice = true
    · rw [if_pos hb]; exact run_tame sl f r t s hr hc hs
    · rw [if_neg hb]
      rcases hl with hl | hl
      · exact absurd (hs hl) hb
      · exact run_tame sl f r t ⟨none, true⟩ hr (Or.inr ⟨rfl, hl⟩) (fun _ => rfl)
  | .lam u b r, t, s, h, hc, hs => by
    obtain ⟨hb, hr⟩ := h
    obtain ⟨h1, h2, h3⟩ := run_tame sl f b u s hb hc hs
    obtain ⟨h4, h5⟩ := run_tame sl f r t (run b s).1 hr h2 h3
    exact ⟨by simp only [run, expected, h1, h4], h5⟩

/-- **Returned tuples** (partial): in all programs in which functions returning tuples have no loop over an array unless `std/slice.zc` is imported, and lambdas return tuples
only of the type of the function they are in, each `return` of a tuple has the type of the function or lambda it is in. -/
theorem returns_partial (sl : Bool) : ∀ (fs : List (String × Body)) (s : St), (∀ f ∈ fs, Tame sl f.1 f.1 f.2) → (sl = true → s.slice = true) →
    parseAll fs s = fs.map fun f => expected f.1 f.2
  | [], _, _, _ => rfl
  | (t, b) :: fs, s, h, hs => by
    obtain ⟨h1, _, h3⟩ := run_tame sl t b t { s with cur := some t } (h (t, b) (by simp)) (Or.inl rfl) hs
    have ih := returns_partial sl fs { (run b { s with cur := some t }).1 with cur := none } (fun f hf => h f (List.mem_cons_of_mem _ hf)) h3
    simp only [parseAll, List.map_cons, h1, ih]

/-- Two functions, with a call in an element, a value in parentheses, a lambda that returns a number, a loop in the second; it meets the hypotheses. -/
example : parseAll
    [("Tuple_int__int", .ret (.tuple [[.w "f", .lp, .w "a", .comma, .w "b", .rp], [.w "c"]]) (.lam "int" (.ret (.one [.lp, .w "a", .rp]) .done) .done)),
      ("int", .loop (.ret (.one [.w "x"]) .done))] ⟨none, false⟩ =
    [[.typed "Tuple_int__int" [[.w "f", .lp, .w "a", .comma, .w "b", .rp], [.w "c"]] [.semi], .expr [.lp, .w "a", .rp, .semi]], [.expr [.w "x", .semi]]] := by
  rw [returns_partial false _ _ ?_ (by intro h; cases h)]
  · decide +kernel
  · have hi : Item [.w "f", .lp, .w "a", .comma, .w "b", .rp] :=
      .word _ (.paren (a := [.w "a", .comma, .w "b"]) (.word _ (.comma (.word _ .nil))) .nil)
    have ha : Item [Tok.w "a"] := .word _ .nil
    have hc : Item [Tok.w "c"] := .word _ .nil
    have hn : ¬ IsTuple "int" := by decide
    intro f hf
    simp only [List.mem_cons, List.not_mem_nil, or_false] at hf
    rcases hf with rfl | rfl
    · refine ⟨⟨by decide, ?_⟩, Or.inl rfl, ⟨Or.inr (Or.inr ⟨[.w "a"], [], rfl, ha⟩), trivial⟩, trivial⟩
      intro e he
      simp only [List.mem_cons, List.not_mem_nil, or_false] at he
      rcases he with rfl | rfl
      · exact ⟨by simp, hi⟩
      · exact ⟨by simp, hc⟩
    · exact ⟨Or.inr hn, Or.inr (Or.inl ⟨_, _, rfl⟩), trivial⟩

/-- **After the first loop**: if the first loop over an array is in a function that returns no tuple, loops do not matter in all functions behind it. -/
theorem after_first {u : String} (hu : ¬ IsTuple u) {b : Body} (hb : Tame true u u b) {fs : List (String × Body)}
    (hf : ∀ f ∈ fs, Tame true f.1 f.1 f.2) (s : St) :
    parseAll ((u, .loop b) :: fs) s = expected u b :: fs.map fun f => expected f.1 f.2 := by
  have hc : InForce u (if s.slice then { s with cur := some u } else ⟨none, true⟩ : St).cur := by
    split
    · exact Or.inl rfl
    · exact Or.inr ⟨rfl, hu⟩
  have hs : (if s.slice then { s with cur := some u } else ⟨none, true⟩ : St).slice = true := by
    split
    · assumption
    · rfl
  obtain ⟨h1, _, h3⟩ := run_tame true u b u _ hb hc (fun _ => hs)
  have ih := returns_partial true fs { (run b (if s.slice then { s with cur := some u } else ⟨none, true⟩)).1 with cur := none } hf (fun _ => h3 rfl)
  show (run b (if s.slice then { s with cur := some u } else ⟨none, true⟩)).2 :: parseAll fs _ = _
  rw [h1]
  exact congrArg _ ih

example (es : List (List Tok)) (h : Plain (.tuple es)) :
    parseAll [("int", .loop .done), ("Tuple_int__int", .loop (.ret (.tuple es) .done))] ⟨none, false⟩ = [[], [.typed "Tuple_int__int" es [.semi]]] := by
  rw [after_first (u := "int") (b := .done) (fs := [("Tuple_int__int", .loop (.ret (.tuple es) .done))]) (by decide) trivial (by
    intro f hf
    simp only [List.mem_cons, List.not_mem_nil, or_false] at hf
    subst hf
    exact ⟨Or.inl rfl, h, Or.inl rfl, trivial⟩)]
  simp only [List.map_cons, List.map_nil, expected]
  rw [if_pos (by decide)]

/-- **Violated, after a loop**: the first loop over an array in a function returning a tuple makes each tuple returned behind it a guessed one, whatever the type and the
elements; the same function behind an import of `std/slice.zc` is right. -/
theorem loop_violated {t : String} (ht : IsTuple t) {es : List (List Tok)} (h : Plain (.tuple es)) :
    parseAll [(t, .loop (.ret (.tuple es) .done))] ⟨none, false⟩ = [[.expr (text (.tuple es))]] ∧
    parseAll [(t, .loop (.ret (.tuple es) .done))] ⟨none, true⟩ = [[.typed t es [.semi]]] ∧
    expected t (.loop (.ret (.tuple es) .done)) = [.typed t es [.semi]] := by
  refine ⟨rfl, ?_, ?_⟩
  · show [[parseReturn (some t) (text (.tuple es))]] = _
    rw [show text (.tuple es) = .lp :: (sep es ++ .rp :: [.semi]) from rfl, literal ht h]
  · simp [expected, ht]

/-- **Violated, in lambdas**: a tuple returned by a lambda in a function that returns a tuple of another type gets the type of the function. -/
theorem lambda_violated {t u : String} (ht : IsTuple t) (hu : IsTuple u) (hne : t ≠ u) {es : List (List Tok)} (h : Plain (.tuple es)) (s : Bool) :
    parseAll [(t, .lam u (.ret (.tuple es) .done) .done)] ⟨none, s⟩ = [[.typed t es [.semi]]] ∧
    expected t (.lam u (.ret (.tuple es) .done) .done) = [.typed u es [.semi]] ∧
    parseAll [(t, .lam u (.ret (.tuple es) .done) .done)] ⟨none, s⟩ ≠ [expected t (.lam u (.ret (.tuple es) .done) .done)] := by
  have h1 : parseAll [(t, .lam u (.ret (.tuple es) .done) .done)] ⟨none, s⟩ = [[.typed t es [.semi]]] := by
    show [[parseReturn (some t) (text (.tuple es))]] = _
    rw [show text (.tuple es) = .lp :: (sep es ++ .rp :: [.semi]) from rfl, literal ht h]
  have h2 : expected t (.lam u (.ret (.tuple es) .done) .done) = [.typed u es [.semi]] := by simp [expected, hu]
  refine ⟨h1, h2, ?_⟩
  rw [h1, h2]
  intro hc
  simp only [List.cons.injEq, Out.typed.injEq, and_true] at hc
  exact hne hc

/-- **Violated, for commas in other brackets**: `return (f<a, b>(x));` is cut at the comma in `<a, b>`, for all names, though it is one call in parentheses. -/
theorem generic_violated {t : String} (ht : IsTuple t) (f a b x : String) :
    parseReturn (some t) [.lp, .w f, .w "<", .w a, .comma, .w b, .w ">", .lp, .w x, .rp, .rp, .semi] =
      .typed t [[.w f, .w "<", .w a], [.w b, .w ">", .lp, .w x, .rp]] [.semi] := by
  refine literal ht (es := [[.w f, .w "<", .w a], [.w b, .w ">", .lp, .w x, .rp]]) ⟨by simp, ?_⟩ [.semi]
  intro e he
  simp only [List.mem_cons, List.not_mem_nil, or_false] at he
  rcases he with rfl | rfl
  · exact ⟨by simp, .word _ (.word _ (.word _ .nil))⟩
  · exact ⟨by simp, .word _ (.word _ (.paren (a := [.w x]) (.word _ .nil) .nil))⟩

/-- **Violated, for more behind the literal**: `return (a, b).swap();` returns `(a, b)`; the rest of the expression is left behind as a statement. -/
theorem rest_violated {t : String} (ht : IsTuple t) {es : List (List Tok)} (h : Plain (.tuple es)) (more : List Tok) :
    parseReturn (some t) (text (.tuple es) |>.dropLast |>.append (more ++ [.semi])) = .typed t es (more ++ [.semi]) := by
  have : (text (.tuple es)).dropLast.append (more ++ [.semi]) = .lp :: (sep es ++ .rp :: (more ++ [.semi])) := by
    have : text (.tuple es) = (.lp :: (sep es ++ [.rp])) ++ [.semi] := by simp [text]
    rw [this, List.dropLast_concat]
    show (.lp :: (sep es ++ [.rp])) ++ (more ++ [.semi]) = _
    simp
  rw [this, literal ht h]

theorem take_shorter : ∀ (ts : List Tok) (d : Nat), (takeElem d ts).2.length ≤ ts.length
  | [], d => by cases d <;> simp [takeElem]
  | x :: r, d => by
    cases d with
    | zero =>
      cases x <;> simp only [takeElem, List.length_cons, Nat.le_refl]
      · exact Nat.le_succ_of_le (take_shorter r 1)
      · exact Nat.le_succ_of_le (take_shorter r 0)
      · exact Nat.le_succ_of_le (take_shorter r 0)
    | succ d =>
      cases x <;> simp only [takeElem, List.length_cons]
      · exact Nat.le_succ_of_le (take_shorter r (d + 2))
      · exact Nat.le_succ_of_le (take_shorter r d)
      · exact Nat.le_succ_of_le (take_shorter r (d + 1))
      · exact Nat.le_succ_of_le (take_shorter r (d + 1))
      · exact Nat.le_succ_of_le (take_shorter r (d + 1))

theorem elems_nil : ∀ (n : Nat), elems n [] = none
  | 0 => rfl
  | n + 1 => by simp [elems, takeElem, elems_nil n]

/-- If the loop ends at all, it ends after at most one round more than there are tokens. -/
theorem elems_fuel : ∀ (n : Nat) (ts : List Tok) (x : List (List Tok) × List Tok), elems n ts = some x → ∀ m, ts.length + 1 ≤ m → elems m ts = some x
  | 0, _, _, h, _, _ => by cases h
  | n + 1, [], x, h, m, _ => by rw [elems_nil] at h; cases h
  | n + 1, .rp :: r, x, h, m + 1, _ => h
  | n + 1, .comma :: r, x, h, m + 1, hm => by
    simp only [elems] at h ⊢
    exact elems_fuel n r x h m (by simp at hm; omega)
  | n + 1, .lp :: r, x, h, m + 1, hm => by
    have hl := take_shorter r 1
    simp only [elems, takeElem, Option.map_eq_some_iff] at h ⊢
    obtain ⟨y, hy, rfl⟩ := h
    exact ⟨y, elems_fuel n _ y hy m (by simp at hm; simp only [Nat.zero_add] at *; omega), rfl⟩
  | n + 1, .semi :: r, x, h, m + 1, hm => by
    have hl := take_shorter r 0
    simp only [elems, takeElem, Option.map_eq_some_iff] at h ⊢
    obtain ⟨y, hy, rfl⟩ := h
    exact ⟨y, elems_fuel n _ y hy m (by simp at hm; omega), rfl⟩
  | n + 1, .w s :: r, x, h, m + 1, hm => by
    have hl := take_shorter r 0
    simp only [elems, takeElem, Option.map_eq_some_iff] at h ⊢
    obtain ⟨y, hy, rfl⟩ := h
    exact ⟨y, elems_fuel n _ y hy m (by simp at hm; omega), rfl⟩

theorem elems_open : ∀ (es : List (List Tok)), (∀ e ∈ es, e ≠ [] ∧ Item e) → ∀ (n : Nat), elems n (sep es) = none
  | _, _, 0 => rfl
  | [], _, n => elems_nil n
  | [e], h, n + 1 => by
    obtain ⟨h1, h2⟩ := h e (by simp)
    have := elems_item h1 h2 n []
    rw [List.append_nil] at this
    simp [sep, this, takeElem, elems_nil]
  | e :: e' :: es, h, 1 => by
    obtain ⟨h1, h2⟩ := h e (by simp)
    have := elems_item h1 h2 0 (.comma :: sep (e' :: es))
    show elems 1 (e ++ .comma :: sep (e' :: es)) = none
    rw [this]; rfl
  | e :: e' :: es, h, n + 2 => by
    obtain ⟨h1, h2⟩ := h e (by simp)
    have ih := elems_open (e' :: es) (fun x hx => h x (List.mem_cons_of_mem _ hx)) n
    have := elems_item h1 h2 (n + 1) (.comma :: sep (e' :: es))
    show elems (n + 2) (e ++ .comma :: sep (e' :: es)) = none
    rw [this]
    simp [takeElem, elems, ih]

/-- **Violated, for a file that ends in a tuple**: `return (a, b` at the end of a file, as in an editor, makes the compiler run forever, whatever the elements; it does not
end after any number of rounds. -/
theorem end_violated {t : String} (ht : IsTuple t) {es : List (List Tok)} (h : Plain (.tuple es)) :
    parseReturn (some t) (.lp :: sep es) = .hang ∧ ∀ n, elems n (sep es) = none := by
  obtain ⟨h2, h⟩ := h
  have ho := elems_open es h
  refine ⟨?_, ho⟩
  match es, h2, h with
  | e :: e' :: es, _, h =>
    have hs := scan_sep (e' := e') (es := es) (h e (by simp)).2 []
    rw [List.append_nil] at hs
    simp only [parseReturn, (isTupleName_iff t).2 ht, hs, ho, Bool.and_self, if_true]

/-- The elements used as witnesses: `(f(a, b), c)`. -/
example : Plain (.tuple [[.w "f", .lp, .w "a", .comma, .w "b", .rp], [.w "c"]]) ∧ IsTuple "Tuple_int__int" ∧ IsTuple "Tuple_int__float" := by
  refine ⟨⟨by decide, ?_⟩, by decide, by decide⟩
  intro e he
  simp only [List.mem_cons, List.not_mem_nil, or_false] at he
  rcases he with rfl | rfl
  · exact ⟨by simp, .word _ (.paren (a := [.w "a", .comma, .w "b"]) (.word _ (.comma (.word _ .nil))) .nil)⟩
  · exact ⟨by simp, .word _ .nil⟩

/-- `return (f(a, b), c)` without the semicolon and the rest of the file -/
example : parseReturn (some "Tuple_int__int") [.lp, .w "a", .comma, .w "b"] = .hang := by decide +kernel

/-- `return (a, b; } fn g() { h()` up to the next `)` that is too many: what is between becomes an element. -/
example : parseReturn (some "Tuple_int__int") [.lp, .w "a", .comma, .w "b", .semi, .w "}", .w "x", .rp, .semi] =
    .typed "Tuple_int__int" [[.w "a"], [.w "b", .semi, .w "}", .w "x"]] [.semi] := by decide +kernel

end Verif.TupleReturn
