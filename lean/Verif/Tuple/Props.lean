import Verif.Tuple.Model

/-! # C61: tuples keep their element types and values -/

namespace Verif.Tuple
open Verif Spec

/-! ## signatures -/

theorem cut_none {s : Text} : cut s = none ↔ ¬ HasSep s := by
  unfold HasSep
  fun_induction cut s with
  | case1 => simp [sep]
  | case2 c =>
      simp only [true_iff]
      rintro ⟨a, b, h⟩
      have := congrArg List.length h
      simp [sep] at this
      omega
  | case3 c d r h =>
      simp only [reduceCtorEq, false_iff, Classical.not_not]
      exact ⟨[], r, by rw [h.1, h.2]; rfl⟩
  | case4 c d r h ih =>
      rw [Option.map_eq_none_iff, ih, List.infix_cons_iff (l₂ := d :: r)]
      have : ¬ sep <+: c :: d :: r := by
        rintro ⟨b, hb⟩
        simp only [sep, List.cons_append, List.nil_append, List.cons.injEq] at hb
        exact h ⟨hb.1.symm, hb.2.1.symm⟩
      simp [this]

theorem hasSep_cons {c : Char} {t : Text} (h : HasSep t) : HasSep (c :: t) :=
  List.infix_cons_iff.2 (.inr h)

/-- The separator is found where it was put. -/
theorem cut_clean : ∀ (t r : Text), ¬ HasSep (t ++ ['_']) → cut (t ++ sep ++ r) = some (t, r)
  | [], r, _ => by simp [sep, cut]
  | [c], r, h => by
      have hc : c ≠ '_' := by
        rintro rfl
        exact h ⟨[], [], rfl⟩
      simp [sep, cut, hc]
  | c :: d :: t, r, h => by
      have ih := cut_clean (d :: t) r (fun h' => h (hasSep_cons h'))
      have hcd : ¬ (c = '_' ∧ d = '_') := by
        rintro ⟨rfl, rfl⟩
        exact h ⟨[], t ++ ['_'], by simp [sep]⟩
      simp only [List.cons_append] at ih ⊢
      rw [cut, if_neg hcd, ih]
      rfl

/-- Otherwise an earlier place is taken for it. -/
theorem cut_dirty : ∀ (t r : Text), HasSep (t ++ ['_']) →
    ∃ a b, cut (t ++ sep ++ r) = some (a, b) ∧ a.length < t.length
  | [], r, h => by
      obtain ⟨a, b, h⟩ := h
      have := congrArg List.length h
      simp [sep] at this
      omega
  | [c], r, h => by
      have hc : c = '_' := by
        obtain ⟨a, b, h⟩ := h
        have hl := congrArg List.length h
        simp [sep] at hl
        have ha : a = [] := List.length_eq_zero_iff.1 (by omega)
        subst ha
        simp [sep] at h
        exact h.1.symm
      subst hc
      exact ⟨[], '_' :: r, by simp [sep, cut], by simp⟩
  | c :: d :: t, r, h => by
      simp only [List.cons_append]
      rw [cut]
      by_cases hcd : c = '_' ∧ d = '_'
      · rw [if_pos hcd]
        exact ⟨[], _, rfl, by simp⟩
      · rw [if_neg hcd]
        have h' : HasSep ((d :: t) ++ ['_']) := by
          unfold HasSep at h
          rw [List.cons_append, List.infix_cons_iff] at h
          rcases h with ⟨b, hb⟩ | h
          · simp only [sep, List.cons_append, List.nil_append, List.cons.injEq] at hb
            exact absurd ⟨hb.1.symm, hb.2.1.symm⟩ hcd
          · exact h
        obtain ⟨a, b, h1, h2⟩ := cut_dirty (d :: t) r h'
        simp only [List.cons_append] at h1
        rw [h1]
        exact ⟨c :: a, b, rfl, by simp at h2 ⊢; omega⟩

theorem split_none {s : Text} (h : cut s = none) : split s = [s] := by
  rw [split]
  split
  · rfl
  · rename_i h'; rw [h] at h'; cases h'

theorem split_some {s a r : Text} (h : cut s = some (a, r)) : split s = a :: split r := by
  rw [split]
  split
  · rename_i h'; rw [h] at h'; cases h'
  · rename_i h'; rw [h] at h'; cases h'; rfl

/-- C61: a tuple type's struct has exactly its element types as fields, in order, if and only if
they can be told apart: no element text contains two underscores, and none but the last ends in
one. -/
theorem fields_exact_iff : ∀ (ts : List Text), ts ≠ [] → (split (join ts) = ts ↔ Separable ts)
  | [], h => absurd rfl h
  | [t], _ => by
      rw [join]
      constructor
      · intro h
        refine .one t (cut_none.1 ?_)
        cases hc : cut t with
        | none => rfl
        | some x =>
            rw [split_some (a := x.1) (r := x.2) hc] at h
            have h2 := congrArg List.length h
            have hne : split x.2 ≠ [] := by rw [split]; split <;> simp
            have : (split x.2).length ≠ 0 := fun h => hne (List.length_eq_zero_iff.1 h)
            simp at h2
            exact absurd h2 hne
      · intro h
        cases h with
        | one _ h => exact split_none (cut_none.2 h)
        | more _ _ _ h => cases h
  | t :: u :: ts, _ => by
      rw [join]
      · by_cases hd : HasSep (t ++ ['_'])
        · obtain ⟨a, b, h1, h2⟩ := cut_dirty t (join (u :: ts)) hd
          rw [split_some h1]
          constructor
          · intro h
            simp only [List.cons.injEq] at h
            rw [h.1] at h2; omega
          · intro h
            cases h with
            | more _ _ h _ => exact absurd hd h
        · rw [split_some (cut_clean t _ hd)]
          have ih := fields_exact_iff (u :: ts) (by simp)
          constructor
          · intro h
            simp only [List.cons.injEq, true_and] at h
            exact .more t _ hd (ih.1 h)
          · intro h
            cases h with
            | more _ _ _ h => rw [ih.2 h]
      · simp

/-- C61: tuple types with different element types are different C types. -/
theorem distinct_partial {ts us : List Text} (ht : Separable ts) (hu : Separable us)
    (h : structName (join ts) = structName (join us)) : ts = us := by
  have hj : join ts = join us := List.append_cancel_left h
  have h1 := (fields_exact_iff ts (by rintro rfl; cases ht)).2 ht
  have h2 := (fields_exact_iff us (by rintro rfl; cases hu)).2 hu
  rw [← h1, ← h2, hj]

theorem join_ident : ∀ {ts : List Text}, (∀ t ∈ ts, IdentChars t) → IdentChars (join ts)
  | [], _ => by intro c hc; simp [join] at hc
  | [t], h => h t (by simp)
  | t :: u :: ts, h => by
      rw [join]
      · intro c hc
        simp only [List.mem_append] at hc
        rcases hc with (hc | hc) | hc
        · exact h t (by simp) c hc
        · right; simp [sep] at hc; exact hc
        · exact join_ident (fun x hx => h x (by simp only [List.mem_cons] at hx ⊢; exact .inr hx)) c hc
      · simp

/-- C61: the struct's name is an identifier when the element texts are. -/
theorem name_partial {ts : List Text} (h : ∀ t ∈ ts, IdentChars t) : IdentChars (structName (join ts)) := by
  intro c hc
  rcases List.mem_append.1 hc with hc | hc
  · have : ∀ c ∈ "Tuple_".toList, c.isAlphanum = true ∨ c = '_' := by decide
    exact this c hc
  · exact join_ident h c hc

example : split (join ["int".toList, "Vec_int".toList, "_p".toList]) =
    ["int".toList, "Vec_int".toList, "_p".toList] :=
  (fields_exact_iff _ (by simp)).2 (.more _ _ (by rw [← cut_none]; decide)
    (.more _ _ (by rw [← cut_none]; decide) (.one _ (by rw [← cut_none]; decide))))

/-- C61 fails for every tuple inside a tuple: `((int, int), int)` becomes a struct with the fields
`Tuple_int`, `int`, `int`. -/
theorem nested_tuple_violated (ts us : List Text) (t : Text) (h : 2 ≤ ts.length) :
    split (join (structName (join ts) :: t :: us)) ≠ structName (join ts) :: t :: us := by
  intro h'
  have := (fields_exact_iff _ (by simp)).1 h'
  cases this with
  | more _ _ h1 _ =>
      apply h1
      match ts, h with
      | a :: b :: ts, _ =>
          rw [join]
          · exact ⟨"Tuple_".toList ++ a, join (b :: ts) ++ ['_'], by simp [structName]⟩
          · simp

example : split (join [structName (join ["int".toList, "int".toList]), "int".toList]) =
    ["Tuple_int".toList, "int".toList, "int".toList] := by
  have h1 : cut "Tuple_int__int__int".toList = some ("Tuple_int".toList, "int__int".toList) := by decide
  have h2 : cut "int__int".toList = some ("int".toList, "int".toList) := by decide
  have h3 : cut "int".toList = none := by decide
  show split "Tuple_int__int__int".toList = _
  rw [split_some h1, split_some h2, split_none h3]

/-- C61 fails for names ending in an underscore: `(my_, int)` has fields `my` and `_int`. -/
theorem underscore_violated : split (join ["my_".toList, "int".toList]) = ["my".toList, "_int".toList] := by
  have h1 : cut "my___int".toList = some ("my".toList, "_int".toList) := by decide
  have h2 : cut "_int".toList = none := by decide
  show split "my___int".toList = _
  rw [split_some h1, split_none h2]

/-- C61 fails: the different tuples `(a__b, c)` and `(a, b, c)` are the same C type. -/
theorem collision_violated : structName (join ["a__b".toList, "c".toList]) =
    structName (join ["a".toList, "b".toList, "c".toList]) := by decide

/-- C61 fails for a tuple with a pointer in it: its struct's name is not an identifier. -/
theorem pointer_violated : ¬ IdentChars (structName (join ["int*".toList, "int".toList])) := by
  intro h
  have := h '*' (by decide)
  revert this; decide

/-! ## buffers -/

/-- C61: a tuple type in a type position overruns the 256 bytes of the signature exactly when the
element texts and separators are longer than 255 characters. -/
theorem type_buffer_iff (ts : List Text) : typeSig ts = .ok (join ts) ↔ (join ts).length ≤ 255 := by
  unfold typeSig
  split <;> simp_all

/-- ... which a tuple of nine types with names of thirty letters does. -/
theorem type_buffer_violated : typeSig (List.replicate 9 (List.replicate 30 'a')) = .ub := by
  decide +kernel

theorem variantMore_safe : ∀ (ts : List Text) (sig : Text), sig.length ≤ 508 →
    variantMore sig ts = .panic ∨
      ∃ r, variantMore sig ts = .ok r ∧ r.length ≤ 511 ∧ r = (ts.foldl (fun s t => s ++ sep ++ t) sig)
  | [], sig, h => .inr ⟨sig, rfl, by omega, rfl⟩
  | t :: ts, sig, h => by
      rw [variantMore]
      split
      · exact .inl rfl
      · rename_i h'
        rw [List.foldl_cons]
        refine variantMore_safe ts _ ?_
        simp [sep] at h' ⊢
        omega

theorem join_foldl : ∀ (ts : List Text) (t : Text), join (t :: ts) = ts.foldl (fun s t => s ++ sep ++ t) t
  | [], t => rfl
  | u :: ts, t => by
      rw [join, List.foldl_cons, join_foldl ts u]
      · generalize t ++ sep = p
        clear t
        induction ts generalizing p u with
        | nil => rfl
        | cons v ts ih =>
            rw [List.foldl_cons, List.foldl_cons]
            rw [ih (u ++ sep ++ v) p]
            congr 1
            simp
      · simp

/-- C61: the signature of a variant's payload never overruns its buffer: it is exact or an error
is reported. -/
theorem variant_safe (ts : List Text) : variantSig ts = .panic ∨
    (variantSig ts = .ok (join ts) ∧ (join ts).length ≤ 511) := by
  cases ts with
  | nil => exact .inl rfl
  | cons t ts =>
      rw [variantSig]
      split
      · exact .inl rfl
      · rename_i h
        rcases variantMore_safe ts t (by omega) with h' | ⟨r, h1, h2, h3⟩
        · exact .inl h'
        · right
          rw [join_foldl]
          exact ⟨by rw [h1, h3], by rw [← h3]; exact h2⟩

example : variantSig ["int".toList, "f32".toList] = .ok "int__f32".toList := by decide

/-! ## literals -/

theorem micros_exact {m k : Nat} (h : k ≤ 6) : micros m k * 10 ^ k = m * 10 ^ 6 := by
  unfold micros
  obtain ⟨j, hj⟩ := Nat.exists_eq_add_of_le h
  generalize hp : 10 ^ k = p
  have hpos : 0 < p := by rw [← hp]; exact Nat.pow_pos (by decide)
  have e : 10 ^ 6 = p * 10 ^ j := by rw [hj, Nat.pow_add, hp]
  rw [e]
  have : (m * (p * 10 ^ j) * 2 + p) / (2 * p) = m * 10 ^ j := by
    have h1 : m * (p * 10 ^ j) * 2 + p = 2 * p * (m * 10 ^ j) + p := by
      congr 1
      simp only [Nat.mul_assoc, Nat.mul_comm, Nat.mul_left_comm]
    rw [h1, Nat.mul_add_div (by omega)]
    have : p / (2 * p) = 0 := Nat.div_eq_of_lt (by omega)
    omega
  rw [this]
  simp only [Nat.mul_comm, Nat.mul_left_comm]

theorem element_plain {e : Elem} (h : Plain e) (env : Text → Value) :
    ∃ x, element e = .ok x ∧ (value env x).Same (meaning env e) := by
  cases e with
  | int n =>
      refine ⟨_, rfl, ?_⟩
      have h : n < 2 ^ 63 := h
      have : n % 2 ^ 64 = n := Nat.mod_eq_of_lt (by omega)
      simp only [value, meaning, Value.Same, asSigned, this, if_pos h]
  | float m k =>
      refine ⟨_, rfl, ?_⟩
      exact micros_exact h
  | str s =>
      have h : s.length ≤ 253 := h
      exact ⟨.str s, by rw [element, if_pos (by omega)], rfl⟩
  | var x =>
      refine ⟨_, rfl, ?_⟩
      show (env x).Same (env x)
      cases env x <;> simp [Value.Same]
  | char c => cases h
  | other v => cases h

theorem width_plain {e : Elem} (h : Plain e) {x : CExp} (hx : element e = .ok x) : width e x = textLength e := by
  cases e with
  | int n =>
      cases hx
      have h : n < 2 ^ 63 := h
      have : n % 2 ^ 64 = n := Nat.mod_eq_of_lt (by omega)
      simp only [width, asSigned, this, if_pos h, textLength]
      rfl
  | float m k =>
      cases hx
      have he := micros_exact (m := m) (k := k) h
      have : micros m k / 10 ^ 6 = m / 10 ^ k := by
        rw [← Nat.mul_div_mul_right (micros m k) _ (Nat.pow_pos (n := k) (show 0 < 10 by decide)), he,
          Nat.mul_comm (10 ^ 6), Nat.mul_div_mul_right _ _ (by decide)]
      simp only [width, this, textLength]
  | str s =>
      have h : s.length ≤ 253 := h
      rw [element, if_pos (by omega)] at hx
      cases hx; rfl
  | var x => cases hx; rfl
  | char c => cases h
  | other v => cases h

theorem agree_cons {env : Text → Value} {x : CExp} {e : Elem} {xs : List CExp} {es : List Elem}
    (h : (value env x).Same (meaning env e)) (h' : Agree env xs es) : Agree env (x :: xs) (e :: es) := by
  refine ⟨by simp [h'.1], fun p hp => ?_⟩
  rw [List.zip_cons_cons] at hp
  rcases List.mem_cons.1 hp with rfl | hp
  · exact h
  · exact h'.2 p hp

theorem elements_plain (env : Text → Value) : ∀ (es : List Elem) (used : Nat), (∀ e ∈ es, Plain e) →
    used + (es.map fun e => textLength e + 2).sum ≤ 4098 →
    ∃ xs, elements used es = .ok xs ∧
      Agree env xs es
  | [], used, _, _ => ⟨[], rfl, rfl, by simp⟩
  | [e], used, h, hf => by
      obtain ⟨x, h1, h2⟩ := element_plain (h e (by simp)) env
      have hw := width_plain (h e (by simp)) h1
      refine ⟨[x], ?_, agree_cons h2 ⟨rfl, by simp⟩⟩
      rw [elements, h1]
      simp only [List.map_cons, List.map_nil, List.sum_cons, List.sum_nil] at hf
      exact if_pos (by omega)
  | e :: f :: es, used, h, hf => by
      obtain ⟨x, h1, h2⟩ := element_plain (h e (by simp)) env
      have hw := width_plain (h e (by simp)) h1
      rw [List.map_cons, List.sum_cons] at hf
      obtain ⟨xs, h3, h4⟩ := elements_plain env (f :: es) (used + width e x + 2)
        (fun y hy => h y (List.mem_cons_of_mem _ hy)) (by omega)
      refine ⟨x :: xs, ?_, agree_cons h2 h4⟩
      rw [elements, h1]
      · rw [List.map_cons, List.sum_cons] at hf
        show (if _ then (elements _ _).bind _ else _) = _
        rw [if_pos (by omega), h3]
        rfl
      · simp

/-- C61: a tuple literal of at most sixteen names, whole numbers below 2^63, decimals with at most
six places and strings of at most 253 characters, whose initializer fits, has the values written
down, in order, and the type of its elements. -/
theorem literal_partial (env : Text → Value) (es : List (Elem × Text)) (hl : es.length ≤ 16)
    (hs : (join (es.map (·.2))).length ≤ 511) (hp : ∀ e ∈ es, Plain e.1) (hf : Fits es) :
    ∃ xs, literal es = .ok (structName (join (es.map (·.2))), xs) ∧
      Agree env xs (es.map (·.1)) := by
  obtain ⟨xs, h1, h2⟩ := elements_plain env (es.map (·.1)) ((structName (join (es.map (·.2)))).length + 5)
    (by intro e he; obtain ⟨y, hy, rfl⟩ := List.mem_map.1 he; exact hp y hy) (by
      unfold Fits at hf
      have e1 : (structName (join (es.map (·.2)))).length = 6 + (join (es.map (·.2))).length := by
        rw [structName, List.length_append]; rfl
      rw [e1, List.map_map]
      simp only [Function.comp_def]
      omega)
  refine ⟨xs, ?_, h2⟩
  rw [literal, if_neg (by omega), if_neg (by omega)]
  show (elements _ _).bind _ = _
  rw [h1]
  rfl

/-- A literal that meets the hypotheses. -/
def sample : List (Elem × Text) :=
  [(.int 42, "int".toList), (.var "x".toList, "Vec_int".toList), (.float 25 1, "float".toList),
   (.str "hello".toList, "string".toList)]

example : sample.length ≤ 16 ∧ (join (sample.map (·.2))).length ≤ 511 ∧ (∀ e ∈ sample, Plain e.1) ∧ Fits sample := by
  refine ⟨by decide, by decide, ?_, ?_⟩
  · intro e he
    simp only [sample, List.mem_cons, List.not_mem_nil, or_false] at he
    rcases he with rfl | rfl | rfl | rfl <;> simp [Plain]
  · unfold Fits; decide +kernel

/-- C61 fails for every element that is not a literal or a name, such as `f(1)`, `a + b`, `-1` or
`p.x`: it silently becomes 0. -/
theorem expression_violated (env : Text → Value) (v : Int) (hv : v ≠ 0) :
    ∃ x, element (.other v) = .ok x ∧ ¬ (value env x).Same (meaning env (.other v)) :=
  ⟨_, rfl, fun h => hv (Eq.symm h)⟩

/-- ... and so does every character. -/
theorem char_violated (env : Text → Value) (c : Nat) (hc : c ≠ 0) :
    ∃ x, element (.char c) = .ok x ∧ ¬ (value env x).Same (meaning env (.char c)) :=
  ⟨_, rfl, fun h => by
    have h : (0 : Int) = c := h
    omega⟩

/-- Decimals are rounded to six places: the constant 0.0000001 becomes 0. -/
theorem decimal_violated (env : Text → Value) :
    ∃ x, element (.float 1 7) = .ok x ∧ x = .micro 0 ∧ ¬ (value env x).Same (meaning env (.float 1 7)) :=
  ⟨_, rfl, by decide, fun h => by
    have h : micros 1 7 * 10 ^ 7 = 1 * 10 ^ 6 := h
    revert h; decide⟩

/-- Whole numbers from 2^63 are negative. -/
theorem unsigned_violated (env : Text → Value) (n : Nat) (h : 2 ^ 63 ≤ n) (h' : n < 2 ^ 64) :
    ∃ x, element (.int n) = .ok x ∧ ¬ (value env x).Same (meaning env (.int n)) := by
  refine ⟨_, rfl, fun he => ?_⟩
  have he : asSigned n = n := he
  rw [asSigned, Nat.mod_eq_of_lt h', if_neg (by omega)] at he
  omega

/-- More than sixteen elements overrun the arrays. -/
theorem seventeen_violated (es : List (Elem × Text)) (h : 17 ≤ es.length) : literal es = .ub := by
  rw [literal, if_pos (by omega)]

/-- A string of 254 characters or more overruns its buffer. -/
theorem string_violated (s : Text) (h : 254 ≤ s.length) : element (.str s) = .ub := by
  rw [element, if_neg (by omega)]

/-! ## literals of a declared type -/

theorem commas_cons (t : Text) {ts : List Text} (h : ts ≠ []) : commas (t :: ts) = t ++ ", ".toList ++ commas ts := by
  cases ts with
  | nil => exact absurd rfl h
  | cons => rw [commas]; simp

theorem collect_ok : ∀ (es : List Text) (cap : Nat) (c : Text), 128 ≤ cap → c.length + 1 ≤ cap → c ≠ [] →
    (∀ e ∈ es, e.length ≤ 126) → collect cap c es = .ok (commas (c :: es))
  | [], cap, c, _, _, _, _ => rfl
  | t :: ts, cap, c, h1, h2, h3, h4 => by
      have ht := h4 t (by simp)
      have hc : 0 < c.length := List.length_pos_iff.2 h3
      have hd : (", ".toList).length = 2 := rfl
      rw [collect]
      simp only [if_pos hc]
      have hl : (c ++ ", ".toList ++ t).length = c.length + 2 + t.length := by
        rw [List.length_append, List.length_append, hd]
      have hfit : (c ++ ", ".toList ++ t).length + 1 ≤
          (if c.length + t.length + 5 > cap then 2 * cap else cap) := by
        rw [hl]; split <;> omega
      rw [if_pos hfit, collect_ok ts _ _ (by split <;> omega) hfit (by simp [h3])
        (fun e he => h4 e (by simp [he]))]
      rw [commas_cons c (by simp)]
      congr 1
      cases ts with
      | nil => rfl
      | cons u us =>
          rw [commas_cons (c ++ ", ".toList ++ t) (by simp), commas_cons t (by simp)]
          simp only [List.append_assoc]

/-- C61: with a declared tuple type whose name has at most 123 characters, elements whose source
texts have at most 126 characters each are all handed to C as they are written, in order, and
nothing is written outside the buffers. -/
theorem typed_partial (tn : Text) (es : List Text) (hn : tn.length ≤ 123)
    (he : ∀ e ∈ es, e ≠ [] ∧ e.length ≤ 126) :
    typed tn es = .ok ("(".toList ++ tn ++ "){".toList ++ commas es ++ "}".toList) := by
  have hc : collect 128 [] es = .ok (commas es) := by
    cases es with
    | nil => rfl
    | cons t ts =>
        have ht := he t (by simp)
        rw [collect]
        simp only [List.length_nil, Nat.lt_irrefl, if_false, List.nil_append, gt_iff_lt]
        rw [if_pos (by split <;> omega)]
        exact collect_ok ts _ t (by split <;> omega) (by split <;> omega) ht.1
          (fun e h => (he e (by simp [h])).2)
  unfold typed
  rw [hc]
  show (if _ then _ else _) = _
  rw [if_pos (by omega)]

example : typed "Tuple_int__int".toList ["f(1)".toList, " a + b".toList] =
    .ok "(Tuple_int__int){f(1),  a + b}".toList := by
  rw [typed_partial _ _ (by decide) (by decide)]; decide

/-- C61 fails for an element of 256 characters or more in front: the buffer is doubled only once. -/
theorem typed_long_violated (tn e : Text) (es : List Text) (h : 256 ≤ e.length) :
    typed tn (e :: es) = .ub := by
  have : collect 128 [] (e :: es) = .ub := by
    rw [collect]
    simp only [List.length_nil, Nat.lt_irrefl, if_false, List.nil_append, gt_iff_lt]
    rw [if_neg (by split <;> omega)]
  unfold typed
  rw [this]
  rfl

/-- ... and for a type whose name has 124 characters or more. -/
theorem typed_name_violated (tn : Text) (es : List Text) (h : 124 ≤ tn.length) :
    ¬ ∃ c, typed tn es = .ok c := by
  rintro ⟨c, hc⟩
  unfold typed at hc
  cases hk : collect 128 [] es with
  | ok d =>
      rw [hk] at hc
      change (if _ then _ else _) = _ at hc
      rw [if_neg (by omega)] at hc
      cases hc
  | panic => rw [hk] at hc; cases hc
  | ub => rw [hk] at hc; cases hc

end Verif.Tuple
