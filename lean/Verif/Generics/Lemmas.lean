import Verif.Generics.Model

/-! # Lemmas about the substitution of type texts -/

namespace Verif.Generics

open DeclOrder (Prim dim)
open Spec

variable {p c : Name} {st : Option (Name × Name)}

/-! ## One step of the substitution -/

theorem replace_arr (hp : ',' ∉ p) {src : Name} {i : Nat} (hb : bracket src = some i)
    (hne : replaceTypeStr p c st (src.take i) ≠ src.take i) :
    replaceTypeStr p c st src = replaceTypeStr p c st (src.take i) ++ src.drop i := by
  conv => lhs; rw [replaceTypeStr.eq_def]
  rw [if_neg hp]
  simp only
  split
  · next r hr =>
    split at hr
    · next j hj =>
      rw [hb] at hj; cases hj
      rw [if_pos hne] at hr
      injection hr with hr
      exact hr.symm
    · cases hr
  · next hr =>
    split at hr
    · next j hj =>
      rw [hb] at hj; cases hj
      rw [if_pos hne] at hr
      cases hr
    · next hj => rw [hb] at hj; cases hj

theorem replace_rest (hp : ',' ∉ p) {src : Name}
    (hb : ∀ i, bracket src = some i → replaceTypeStr p c st (src.take i) = src.take i) :
    replaceTypeStr p c st src =
      if src = p then c
      else match whole p st src with
        | some r => r
        | none =>
          match suffixRule p c src with
          | some r => r
          | none =>
            match (if 1 < src.length ∧ src.getLast? = some '*' then
                if replaceTypeStr p c st src.dropLast ≠ src.dropLast then
                  some (replaceTypeStr p c st src.dropLast ++ ['*']) else none
              else none) with
            | some r => r
            | none =>
              match (if sliceKw.isPrefixOf src = true then
                  if replaceTypeStr p c st (src.drop 6) ≠ src.drop 6 then
                    some (sliceKw ++ replaceTypeStr p c st (src.drop 6)) else none
                else none) with
              | some r => r
              | none => src := by
  conv => lhs; rw [replaceTypeStr.eq_def]
  rw [if_neg hp]
  simp only
  split
  · next r hr =>
    split at hr
    · next j hj =>
      rw [if_neg (by simp [hb j hj])] at hr
      cases hr
    · cases hr
  · rfl

/-! ## Texts behind a name: stars and array sizes -/

/-- stars and array sizes -/
inductive Tl : Name → Prop
  | nil : Tl []
  | star {d : Name} : Tl d → Tl (d ++ ['*'])
  | dim {d : Name} (n : Nat) : Tl d → Tl (d ++ DeclOrder.dim n)

theorem Tl.append {d e : Name} (hd : Tl d) (he : Tl e) : Tl (d ++ e) := by
  induction he with
  | nil => simpa using hd
  | star _ ih => rw [← List.append_assoc]; exact ih.star
  | dim n _ ih => rw [← List.append_assoc]; exact ih.dim n

theorem Tl.one : Tl ['*'] := Tl.nil.star

theorem Tl.size (n : Nat) : Tl (DeclOrder.dim n) := Tl.nil.dim n

theorem dim_digits (n : Nat) : ∃ ds : Name, dim n = '[' :: ds ++ [']'] ∧
    ∀ x ∈ ds, x.isDigit = true := by
  refine ⟨(toString n).toList, rfl, fun x hx => ?_⟩
  have : (toString n).toList = Nat.toDigits 10 n := Nat.toList_repr
  rw [this] at hx
  exact Nat.isDigit_of_mem_toDigits (by decide) (by decide) hx

/-- the characters of stars and sizes -/
theorem Tl.mem {d : Name} (hd : Tl d) : ∀ x ∈ d, x = '*' ∨ x = '[' ∨ x = ']' ∨ x.isDigit = true := by
  induction hd with
  | nil => intro x hx; cases hx
  | star _ ih =>
    intro x hx
    rcases List.mem_append.1 hx with h | h
    · exact ih x h
    · left; simpa using h
  | dim n _ ih =>
    intro x hx
    rcases List.mem_append.1 hx with h | h
    · exact ih x h
    · obtain ⟨ds, e, hds⟩ := dim_digits n
      rw [e] at h
      rcases List.mem_append.1 h with h | h
      · rcases List.mem_cons.1 h with h | h
        · exact .inr (.inl h)
        · exact .inr (.inr (.inr (hds x h)))
      · exact .inr (.inr (.inl (by simpa using h)))

theorem Tl.last {d : Name} (hd : Tl d) : d = [] ∨ d.getLast? = some '*' ∨ d.getLast? = some ']' := by
  cases hd with
  | nil => exact .inl rfl
  | star _ => right; left; simp
  | dim n _ =>
    obtain ⟨ds, e, -⟩ := dim_digits n
    right; right
    rw [e, ← List.append_assoc, List.getLast?_append]
    rfl

theorem Tl.head {d : Name} (hd : Tl d) : ∀ x, d.head? = some x → x = '*' ∨ x = '[' := by
  induction hd with
  | nil => intro x hx; cases hx
  | @star e _ ih =>
    intro x hx
    cases e with
    | nil => left; simpa using hx.symm
    | cons y e => exact ih x (by simpa using hx)
  | @dim e n _ ih =>
    intro x hx
    cases e with
    | nil =>
      obtain ⟨ds, e, -⟩ := dim_digits n
      rw [e] at hx
      right; simpa using hx.symm
    | cons y e => exact ih x (by simpa using hx)

theorem openIdx_digits (ds r : Name) (h : ∀ x ∈ ds, x.isDigit = true) :
    openIdx (ds ++ '[' :: r) 1 = some (ds.length + 1) := by
  induction ds with
  | nil => simp [openIdx]
  | cons x ds ih =>
    have hx := h x (by simp)
    have h1 : x ≠ ']' := by rintro rfl; revert hx; decide
    have h2 : x ≠ '[' := by rintro rfl; revert hx; decide
    simp only [List.cons_append, openIdx]
    rw [if_neg h1, if_neg h2, ih (fun y hy => h y (by simp [hy]))]
    simp

theorem openIdx_dim (x : Name) (n : Nat) :
    openIdx (x ++ dim n).reverse 0 = some (dim n).length := by
  obtain ⟨ds, e, hds⟩ := dim_digits n
  rw [e]
  have : (x ++ ('[' :: ds ++ [']'])).reverse = ']' :: (ds.reverse ++ '[' :: x.reverse) := by simp
  rw [this]
  simp only [openIdx, if_true]
  rw [openIdx_digits _ _ (fun y hy => hds y (by simpa using hy))]
  simp

theorem bracket_dim {x : Name} (hx : x ≠ []) (n : Nat) : bracket (x ++ dim n) = some x.length := by
  have hl : (x ++ dim n).getLast? = some ']' := by
    obtain ⟨ds, e, -⟩ := dim_digits n
    rw [e, ← List.append_assoc, List.getLast?_append]; rfl
  have : 0 < x.length := List.length_pos_iff.2 hx
  unfold bracket
  rw [if_pos hl, openIdx_dim]
  simp only [List.length_append, Nat.add_sub_cancel]
  rw [if_pos this]

theorem bracket_dim_nil (n : Nat) : bracket (dim n) = none := by
  have := openIdx_dim [] n
  unfold bracket
  split
  · rw [List.nil_append] at this
    rw [this]; simp
  · rfl

theorem bracket_none {x : Name} (h : x.getLast? ≠ some ']') : bracket x = none := by
  unfold bracket; rw [if_neg h]

/-! ## The rules on texts with a known end -/

theorem parts_single {w : Name} (h : ',' ∉ w) : parts w = [w] := by
  induction w with
  | nil => rfl
  | cons x w ih =>
    have h1 : x ≠ ',' := by rintro rfl; simp at h
    rw [parts, if_neg h1, ih (fun hh => h (by simp [hh]))]

theorem suffixOf_single {w : Name} (h : ',' ∉ w) (hn : w ≠ []) : suffixOf (parts w) = '_' :: w := by
  rw [parts_single h]; simp [suffixOf, hn]

theorem ident_comma {x : Char} (h : isIdent x = true) : x ≠ ',' := by
  rintro rfl; revert h; decide

theorem Spec.Param.comma (hp : Param p) : ',' ∉ p := fun h => ident_comma (hp.ident _ h).1 rfl

theorem getLast?_mem' {s : Name} {x : Char} (h : s.getLast? = some x) : x ∈ s :=
  List.mem_of_getLast? h

/-- text ending with `*` or `]` -/
theorem ident_last {s : Name} (hs : ∀ x ∈ s, isIdent x = true) :
    s.getLast? ≠ some '*' ∧ s.getLast? ≠ some ']' := by
  constructor <;> intro h <;> have := hs _ (getLast?_mem' h) <;> revert this <;> decide

theorem suffixRule_none (hp : Param p) {src : Name} (h : ¬ ('_' :: p) <:+ src) :
    suffixRule p c src = none := by
  unfold suffixRule
  simp only
  rw [suffixOf_single hp.comma hp.ne, if_neg]
  intro hh
  exact h (List.isSuffixOf_iff_suffix.1 hh)

theorem suffixRule_some (hp : Param p) (hc : ',' ∉ c) (hn : c ≠ []) (x : Name) :
    suffixRule p c (x ++ '_' :: p) = some (x ++ '_' :: sanitize c) := by
  unfold suffixRule
  simp only
  rw [suffixOf_single hp.comma hp.ne, if_pos (List.isSuffixOf_iff_suffix.2 ⟨x, rfl⟩)]
  have : (x ++ '_' :: p).take ((x ++ '_' :: p).length - ('_' :: p).length) = x := by
    rw [List.length_append, Nat.add_sub_cancel, List.take_left']
    rfl
  rw [this]
  simp [suffixRule.suffixOf', parts_single hc, hn]

/-- A parameter is no suffix of a text ending with `*` or `]`. -/
theorem no_suffix (hp : Param p) {src : Name}
    (h : src.getLast? = some '*' ∨ src.getLast? = some ']') {w : Name} : ¬ (w ++ p) <:+ src := by
  rintro ⟨t, rfl⟩
  have e : (t ++ (w ++ p)).getLast? = p.getLast? := by
    rw [← List.append_assoc, List.getLast?_append]
    cases hq : p.getLast? with
    | none => exact absurd (List.getLast?_eq_none_iff.1 hq) hp.ne
    | some q => rfl
  have := ident_last (fun x hx => (hp.ident x hx).1)
  rw [e] at h
  rcases h with h | h
  · exact this.1 h
  · exact this.2 h

/-- The substitution leaves `whole` out on texts ending with `*` or `]`. -/
theorem whole_none (hp : Param p) {src : Name} (ho : ∀ os ns, st = some (os, ns) → Tpl os)
    (h : src.getLast? = some '*' ∨ src.getLast? = some ']') : whole p st src = none := by
  unfold whole
  split
  · rfl
  · next os ns =>
    rw [if_neg]
    rintro (rfl | rfl)
    · have := ident_last (fun x hx => ((ho src ns rfl).ident x hx).1)
      rcases h with h | h
      · exact this.1 h
      · exact this.2 h
    · exact no_suffix hp h (w := ['_']) ⟨os, by simp⟩

/-- A changed text stays changed under stars and sizes. -/
theorem replace_changed (hp : Param p) (ho : ∀ os ns, st = some (os, ns) → Tpl os) {x y d : Name}
    (hx : x ≠ []) (h : replaceTypeStr p c st x = y) (hne : y ≠ x) (hd : Tl d) :
    replaceTypeStr p c st (x ++ d) = y ++ d := by
  induction hd with
  | nil => simpa using h
  | @star d _ ih =>
    have hl : (x ++ (d ++ ['*'])).getLast? = some '*' := by rw [← List.append_assoc]; simp
    have hnep : x ++ (d ++ ['*']) ≠ p := by
      intro e; exact no_suffix hp (.inl hl) (w := []) ⟨[], by rw [e]; rfl⟩
    rw [replace_rest hp.comma (fun i hi => by rw [bracket_none (by rw [hl]; decide)] at hi; cases hi),
      if_neg hnep, whole_none hp ho (.inl hl),
      suffixRule_none hp (fun hh => no_suffix hp (.inl hl) (w := ['_']) hh)]
    have hdl : (x ++ (d ++ ['*'])).dropLast = x ++ d := by rw [← List.append_assoc]; simp
    have hlen : 1 < (x ++ (d ++ ['*'])).length := by
      have := List.length_pos_iff.2 hx
      simp; omega
    simp only [hdl]
    rw [if_pos ⟨hlen, hl⟩, ih, if_pos (by simpa using hne)]
    simp
  | @dim d n _ ih =>
    rw [← List.append_assoc]
    have hb := bracket_dim (x := x ++ d) (by simp [hx]) n
    rw [replace_arr hp.comma hb]
    · rw [List.take_left' rfl, List.drop_left' rfl, ih, List.append_assoc]
    · rw [List.take_left' rfl, ih]; simpa using hne

/-! ## Texts that stay -/

theorem lastSeg_us (x y : Name) : lastSeg (x ++ '_' :: y) = lastSeg y := by
  unfold lastSeg
  congr 1
  rw [List.reverse_append, List.reverse_cons, List.append_assoc, List.singleton_append]
  generalize y.reverse = r
  induction r with
  | nil => simp
  | cons z r ih =>
    simp only [List.cons_append, List.takeWhile_cons]
    split
    · rw [ih]
    · rfl

theorem lastSeg_self {y : Name} (h : '_' ∉ y) : lastSeg y = y := by
  have e : y.reverse.takeWhile (· ≠ '_') = y.reverse := by
    have hr : ∀ x ∈ y.reverse, x ≠ '_' := by
      rintro x hx rfl; exact h (by simpa using hx)
    generalize y.reverse = r at hr
    induction r with
    | nil => rfl
    | cons z r ih =>
      rw [List.takeWhile_cons, if_pos (by simpa using hr z (by simp)),
        ih (fun x hx => hr x (by simp [hx]))]
  show (y.reverse.takeWhile (· ≠ '_')).reverse = y
  rw [e, List.reverse_reverse]

theorem Spec.Param.noUs (hp : Param p) : '_' ∉ p := fun h => (hp.ident _ h).2 rfl

theorem lastSeg_suffix (hp : Param p) {y : Name} (h : ('_' :: p) <:+ y) : lastSeg y = p := by
  obtain ⟨t, rfl⟩ := h
  rw [lastSeg_us, lastSeg_self hp.noUs]

/-- `k` times `Slice_` -/
def slices : Nat → Name → Name
  | 0, y => y
  | k + 1, y => sliceKw ++ slices k y

/-- The text in front of stars and sizes in a type that stays. -/
structure Core (p : Name) (os : Option Name) (y : Name) : Prop where
  last : ∀ x, y.getLast? = some x → isIdent x = true
  seg : lastSeg y ≠ p
  self : ∀ k o, os = some o → y ≠ slices k o

theorem slice_split {y d : Name} (hd : Tl d) (h : sliceKw <+: y ++ d) :
    ∃ y', y = sliceKw ++ y' := by
  have hl : sliceKw.length ≤ y.length := by
    apply Classical.byContradiction
    intro hlt
    have hlt : y.length < 6 := by simp [sliceKw] at hlt; omega
    obtain ⟨r, hr⟩ := h
    have h1 : (sliceKw ++ r)[y.length]? = sliceKw[y.length]? := by
      rw [List.getElem?_append_left (by simp [sliceKw]; omega)]
    have h2 : (sliceKw ++ r)[y.length]? = d.head? := by
      rw [hr, List.getElem?_append_right (Nat.le_refl _), Nat.sub_self, List.head?_eq_getElem?]
    rw [h1] at h2
    obtain ⟨x, hx⟩ : ∃ x, sliceKw[y.length]? = some x := by
      rw [List.getElem?_eq_getElem (by simp [sliceKw]; omega)]
      exact ⟨_, rfl⟩
    have hm : x ∈ sliceKw := List.mem_of_getElem? hx
    have := hd.head x (by rw [← h2, hx])
    rcases this with rfl | rfl <;> revert hm <;> decide
  obtain ⟨r, hr⟩ := List.prefix_of_prefix_length_le h (List.prefix_append y d) hl
  exact ⟨r, hr.symm⟩

theorem replace_still (hp : Param p) (ho : ∀ os ns, st = some (os, ns) → Tpl os) :
    ∀ (n : Nat) (y d : Name), (y ++ d).length = n → Tl d → Core p (st.map (·.1)) y →
      replaceTypeStr p c st (y ++ d) = y ++ d := by
  intro n
  induction n using Nat.strongRecOn with
  | _ n ih =>
    intro y d hn hd hy
    have hbr : ∀ i, bracket (y ++ d) = some i →
        replaceTypeStr p c st ((y ++ d).take i) = (y ++ d).take i := by
      intro i hi
      have hil := bracket_lt hi
      cases hd with
      | nil =>
        rw [bracket_none] at hi
        · cases hi
        · intro hc
          rw [List.append_nil] at hc
          have := hy.last _ hc; revert this; decide
      | @star d hd =>
        rw [bracket_none] at hi
        · cases hi
        · rw [← List.append_assoc]; simp
      | @dim d m hd =>
        rw [← List.append_assoc] at hi hil ⊢
        by_cases he : y ++ d = []
        · rw [he, List.nil_append, bracket_dim_nil] at hi; cases hi
        · rw [bracket_dim he m] at hi
          cases hi
          rw [List.take_left' rfl]
          refine ih _ ?_ y d rfl hd hy
          rw [← List.append_assoc] at hn
          omega
    have hnp : y ++ d ≠ p := by
      intro e
      rcases hd.last with h | h
      · subst h
        rw [List.append_nil] at e
        exact hy.seg (by rw [e, lastSeg_self hp.noUs])
      · refine no_suffix hp (src := y ++ d) ?_ (w := []) ⟨[], by rw [e]; rfl⟩
        rcases h with h | h <;> simp [List.getLast?_append, h]
    have hends : d ≠ [] → (y ++ d).getLast? = some '*' ∨ (y ++ d).getLast? = some ']' := by
      intro hdn
      rcases hd.last with h | h
      · exact absurd h hdn
      · rcases h with h | h <;> simp [List.getLast?_append, h]
    have hwh : whole p st (y ++ d) = none := by
      by_cases hdn : d = []
      · subst hdn
        rw [List.append_nil]
        unfold whole
        split
        · rfl
        · next os ns =>
          rw [if_neg]
          rintro (e | e)
          · exact hy.self 0 os (by simp) e
          · exact hy.seg (lastSeg_suffix hp ⟨os, e.symm⟩)
      · exact whole_none hp ho (hends hdn)
    have hsf : suffixRule p c (y ++ d) = none := by
      refine suffixRule_none hp fun hh => ?_
      by_cases hdn : d = []
      · subst hdn
        rw [List.append_nil] at hh
        exact hy.seg (lastSeg_suffix hp hh)
      · exact no_suffix hp (hends hdn) (w := ['_']) hh
    rw [replace_rest hp.comma hbr, if_neg hnp, hwh, hsf]
    have hstar : (if 1 < (y ++ d).length ∧ (y ++ d).getLast? = some '*' then
        if replaceTypeStr p c st (y ++ d).dropLast ≠ (y ++ d).dropLast then
          some (replaceTypeStr p c st (y ++ d).dropLast ++ ['*']) else none
        else none) = none := by
      split
      · next h =>
        rw [if_neg]
        simp only [ne_eq, Classical.not_not]
        cases hd with
        | nil =>
          exact absurd (hy.last '*' (by simpa using h.2)) (by decide)
        | @star d hd =>
          rw [← List.append_assoc, List.dropLast_concat]
          refine ih _ ?_ y d rfl hd hy
          rw [← List.append_assoc] at hn
          simp at hn ⊢
          omega
        | @dim d m hd =>
          obtain ⟨ds, e, -⟩ := dim_digits m
          have := h.2
          rw [e, ← List.append_assoc, ← List.append_assoc, List.getLast?_append] at this
          simp at this
      · rfl
    have hsl : (if sliceKw.isPrefixOf (y ++ d) = true then
        if replaceTypeStr p c st ((y ++ d).drop 6) ≠ (y ++ d).drop 6 then
          some (sliceKw ++ replaceTypeStr p c st ((y ++ d).drop 6)) else none
        else none) = none := by
      split
      · next h =>
        rw [if_neg]
        simp only [ne_eq, Classical.not_not]
        obtain ⟨y', rfl⟩ := slice_split hd (List.isPrefixOf_iff_prefix.1 h)
        have : (sliceKw ++ y' ++ d).drop 6 = y' ++ d := by simp [sliceKw]
        rw [this]
        refine ih _ ?_ y' d rfl hd ⟨?_, ?_, ?_⟩
        · rw [← hn]; simp [sliceKw]; omega
        · intro x hx
          exact hy.last x (by simp [List.getLast?_append, hx])
        · have := hy.seg
          rw [show sliceKw ++ y' = ['S', 'l', 'i', 'c', 'e'] ++ '_' :: y' from rfl, lastSeg_us] at this
          exact this
        · intro k o hk e
          exact hy.self (k + 1) o hk (by rw [e]; rfl)
      · rfl
    rw [hstar, hsl]

/-! ## Sanitized texts -/

/-- `sanitize` without the removal of `struct ` -/
def san (s : Name) : Name := s.flatMap sanitizeChar

theorem san_append (x y : Name) : san (x ++ y) = san x ++ san y := by simp [san]

theorem sanitize_eq {s : Name} (h : ¬ structKw <+: s) : sanitize s = san s := by
  unfold sanitize
  rw [if_neg (fun hh => h (List.isPrefixOf_iff_prefix.1 hh))]
  rfl

theorem ident_ne {x : Char} (h : isIdent x = true) : x ≠ '*' ∧ x ≠ '<' ∧ x ≠ ',' ∧ x ≠ ' ' ∧
    x ≠ '>' ∧ x ≠ '&' ∧ x ≠ '[' ∧ x ≠ ']' := by
  refine ⟨?_, ?_, ?_, ?_, ?_, ?_, ?_, ?_⟩ <;> rintro rfl <;> revert h <;> decide

theorem san_ident {s : Name} (h : ∀ x ∈ s, isIdent x = true) : san s = s := by
  induction s with
  | nil => rfl
  | cons x s ih =>
    have hx := h x (by simp)
    obtain ⟨h1, h2, h3, h4, h5, h6, -, -⟩ := ident_ne hx
    have : sanitizeChar x = [x] := by
      unfold sanitizeChar
      rw [if_neg h1, if_neg (by simp [h2, h3, h4]), if_neg (by simp [h5, h6]), if_pos hx]
    have ih := ih (fun y hy => h y (by simp [hy]))
    simp only [san] at ih
    simp [san, this, ih]

theorem san_mem {s : Name} : ∀ x ∈ san s, isIdent x = true := by
  intro x hx
  obtain ⟨y, -, hy⟩ := List.mem_flatMap.1 hx
  unfold sanitizeChar at hy
  repeat' split at hy
  all_goals first
    | (next h => rw [List.mem_singleton] at hy; subst hy; exact h)
    | (simp only [List.mem_cons, List.not_mem_nil, or_false] at hy
       rcases hy with rfl | rfl | rfl <;> decide)
    | (rw [List.mem_singleton] at hy; subst hy; decide)
    | cases hy

theorem sanitize_mem {s : Name} : ∀ x ∈ sanitize s, isIdent x = true := by
  intro x hx
  exact san_mem (s := if structKw.isPrefixOf s then s.drop 7 else s) x hx

theorem noStruct_ident {s : Name} (h : ∀ x ∈ s, isIdent x = true) : ¬ structKw <+: s := by
  rintro ⟨t, rfl⟩
  have := h ' ' (by simp [structKw])
  revert this; decide

theorem sanitize_ident {s : Name} (h : ∀ x ∈ s, isIdent x = true) : sanitize s = s := by
  rw [sanitize_eq (noStruct_ident h), san_ident h]

/-- A text goes on with a character outside `struct `. -/
theorem noStruct_append {x y : Name} (hx : ¬ structKw <+: x)
    (hy : ∀ z, y.head? = some z → z ∉ structKw) : ¬ structKw <+: x ++ y := by
  intro h
  by_cases hl : structKw.length ≤ x.length
  · exact hx (List.prefix_of_prefix_length_le h (List.prefix_append x y) hl)
  · obtain ⟨r, hr⟩ := h
    have h1 : (structKw ++ r)[x.length]? = structKw[x.length]? := by
      rw [List.getElem?_append_left (by omega)]
    have h2 : (structKw ++ r)[x.length]? = y.head? := by
      rw [hr, List.getElem?_append_right (Nat.le_refl _), Nat.sub_self, List.head?_eq_getElem?]
    rw [h1] at h2
    obtain ⟨z, hz⟩ : ∃ z, structKw[x.length]? = some z := by
      rw [List.getElem?_eq_getElem (by omega)]
      exact ⟨_, rfl⟩
    exact hy z (by rw [← h2, hz]) (List.mem_of_getElem? hz)

theorem Tl.noStruct {x d : Name} (hd : Tl d) (hx : ¬ structKw <+: x) : ¬ structKw <+: x ++ d := by
  refine noStruct_append hx fun z hz => ?_
  rcases hd.head z hz with rfl | rfl <;> decide

theorem noStruct_head {s : Name} (h : s.head? ≠ some 's') : ¬ structKw <+: s := by
  rintro ⟨t, rfl⟩
  exact h rfl

/-- the text of a type that stays does not begin with `struct ` -/
theorem clean_noStruct {os : Option Name} {t : Ty} (h : Clean p os t) (b : Bool) :
    ∀ d, Tl d → ¬ structKw <+: txt b t d := by
  induction h with
  | prim k =>
    intro d hd
    refine hd.noStruct ?_
    cases b <;> cases k <;> decide
  | name n _ hi => intro d hd; exact hd.noStruct (noStruct_ident hi)
  | par n hp => intro d hd; exact hd.noStruct (noStruct_ident fun x hx => (hp.ident x hx).1)
  | ptr _ ih =>
    intro d hd
    have := (Tl.one.append hd).noStruct (ih [] Tl.nil)
    simpa [txt] using this
  | arr n _ ih => intro d hd; exact ih _ (hd.append (Tl.size n))
  | slice _ _ => intro d hd; exact noStruct_head (by simp [txt, sliceKw])
  | app g hg _ _ =>
    intro d hd
    refine hd.noStruct (noStruct_ident fun x hx => ?_)
    rcases List.mem_append.1 hx with hx | hx
    · exact (hg.ident x hx).1
    · rcases List.mem_cons.1 hx with rfl | hx
      · decide
      · exact sanitize_mem x hx
  | app2 g hg _ _ _ _ =>
    intro d hd
    refine hd.noStruct (noStruct_ident fun x hx => ?_)
    simp only [List.mem_append, List.mem_cons] at hx
    rcases hx with (hx | rfl | hx) | rfl | hx
    · exact (hg.ident x hx).1
    · decide
    · exact sanitize_mem x hx
    · decide
    · exact sanitize_mem x hx
  | const _ _ => intro d hd; exact noStruct_head (by cases b <;> simp [txt])

theorem lastSeg_noUs (x : Name) {y : Name} (hy : '_' ∉ y) : lastSeg (x ++ y) = lastSeg x ++ y := by
  unfold lastSeg
  rw [← List.reverse_reverse y, ← List.reverse_append, List.reverse_reverse]
  congr 1
  rw [List.reverse_append]
  have hr : ∀ z ∈ y.reverse, z ≠ '_' := by
    rintro z hz rfl; exact hy (by simpa using hz)
  generalize y.reverse = r at hr
  induction r with
  | nil => rfl
  | cons z r ih =>
    simp only [List.cons_append]
    rw [List.takeWhile_cons, if_pos (by simpa using hr z (by simp)),
      ih (fun x hx => hr x (by simp [hx]))]

theorem lastSeg_hasUs (x : Name) {y : Name} (hy : '_' ∈ y) : lastSeg (x ++ y) = lastSeg y := by
  obtain ⟨a, b, rfl⟩ := List.append_of_mem hy
  rw [← List.append_assoc, lastSeg_us, lastSeg_us]

/-- stars and sizes hide the parameter -/
theorem lastSeg_tl (hp : Param p) {d : Name} (hd : Tl d) (hne : d ≠ []) (x : Name) :
    lastSeg (x ++ san d) ≠ p := by
  cases hd with
  | nil => exact absurd rfl hne
  | @star d _ =>
    rw [san_append, show san ['*'] = ['P', 't', 'r'] from rfl, ← List.append_assoc,
      lastSeg_noUs _ (by decide)]
    intro e
    exact hp.ptr ⟨_, e⟩
  | @dim d n _ =>
    obtain ⟨ds, e, -⟩ := dim_digits n
    rw [e, san_append, san_append, show san [']'] = ['_'] from rfl, ← List.append_assoc,
      ← List.append_assoc, lastSeg_us]
    exact fun e => hp.ne e.symm

theorem clean_seg (hp : Param p) {os : Option Name} {t : Ty} (h : Clean p os t) :
    ∀ d, Tl d → lastSeg (san (txt false t d)) ≠ p := by
  have reduce : ∀ (w d : Name), Tl d → lastSeg (san w) ≠ p → lastSeg (san (w ++ d)) ≠ p := by
    intro w d hd hw
    by_cases hne : d = []
    · subst hne; simpa using hw
    · rw [san_append]; exact lastSeg_tl hp hd hne _
  induction h with
  | prim k _ _ hm =>
    intro d hd
    refine reduce _ d hd ?_
    have : ¬ structKw <+: k.zText.toList := by cases k <;> decide
    rw [sanitize_eq this] at hm
    exact hm
  | name n _ hi hl => intro d hd; exact reduce _ d hd (by rw [san_ident hi]; exact hl)
  | par n hn hl =>
    intro d hd
    refine reduce _ d hd ?_
    rw [san_ident fun x hx => (hn.ident x hx).1, lastSeg_self hn.noUs]
    exact hl
  | ptr _ ih =>
    intro d hd
    have := reduce _ _ (Tl.one.append hd) (ih [] Tl.nil)
    simpa [txt] using this
  | arr n _ ih => intro d hd; exact ih _ (hd.append (Tl.size n))
  | slice _ ih =>
    intro d hd
    refine reduce _ d hd ?_
    rw [san_append, show san sliceKw = ['S', 'l', 'i', 'c', 'e'] ++ ['_'] from rfl,
      List.append_assoc, List.singleton_append, lastSeg_us]
    exact ih [] Tl.nil
  | @app t g hg ht ih =>
    intro d hd
    refine reduce _ d hd ?_
    rw [san_ident, lastSeg_us, sanitize_eq (clean_noStruct ht false [] Tl.nil)]
    · exact ih [] Tl.nil
    · intro x hx
      simp only [List.mem_append, List.mem_cons] at hx
      rcases hx with hx | rfl | hx
      · exact (hg.ident x hx).1
      · decide
      · exact sanitize_mem x hx
  | @app2 t u g hg ht hu _ ih =>
    intro d hd
    refine reduce _ d hd ?_
    rw [san_ident, lastSeg_us, sanitize_eq (clean_noStruct hu false [] Tl.nil)]
    · exact ih [] Tl.nil
    · intro x hx
      simp only [List.mem_append, List.mem_cons] at hx
      rcases hx with (hx | rfl | hx) | rfl | hx
      · exact (hg.ident x hx).1
      · decide
      · exact sanitize_mem x hx
      · decide
      · exact sanitize_mem x hx
  | const _ ih =>
    intro d hd
    refine reduce _ d hd ?_
    rw [san_append, show san "const ".toList = "const".toList ++ ['_'] from rfl,
      List.append_assoc, List.singleton_append, lastSeg_us]
    exact ih [] Tl.nil

/-! ## The texts of types that stay -/

theorem us_unique {x x' r r' : Name} (hx : '_' ∉ x) (hx' : '_' ∉ x')
    (h : x ++ '_' :: r = x' ++ '_' :: r') : x = x' := by
  induction x generalizing x' with
  | nil =>
    cases x' with
    | nil => rfl
    | cons y x' =>
      simp only [List.nil_append, List.cons_append, List.cons.injEq] at h
      exact absurd (by simp [← h.1]) hx'
  | cons z x ih =>
    cases x' with
    | nil =>
      simp only [List.nil_append, List.cons_append, List.cons.injEq] at h
      exact absurd (by simp [h.1]) hx
    | cons y x' =>
      simp only [List.cons_append, List.cons.injEq] at h
      rw [h.1, ih (fun hh => hx (by simp [hh])) (fun hh => hx' (by simp [hh])) h.2]

theorem Spec.Tpl.noUs {g : Name} (h : Tpl g) : '_' ∉ g := fun hh => (h.ident _ hh).2 rfl

/-- a name followed by `_` is not `Slice_Slice_..os` -/
theorem inst_not_self {g r o : Name} (hg : Tpl g) (ho : Tpl o) (k : Nat) :
    g ++ '_' :: r ≠ slices k o := by
  cases k with
  | zero => intro e; exact ho.noUs (by rw [show o = g ++ '_' :: r from e.symm]; simp)
  | succ k =>
    intro e
    refine hg.slice (us_unique hg.noUs (by decide) (r := r) (r' := slices k o) ?_)
    rw [e]; rfl

theorem last_append (x : Name) {y : Name} (hy : y ≠ []) : (x ++ y).getLast? = y.getLast? := by
  rw [List.getLast?_append]
  cases h : y.getLast? with
  | none => exact absurd (List.getLast?_eq_none_iff.1 h) hy
  | some _ => rfl

theorem clean_core (hp : Param p) {os : Option Name} (ho : ∀ o, os = some o → Tpl o) {t : Ty}
    (h : Clean p os t) (b : Bool) : ∀ d, Tl d → ∃ y e, txt b t d = y ++ e ∧ Tl e ∧ y ≠ [] ∧
      Core p os y := by
  have instCore : ∀ g r : Name, Tpl g → (∀ x ∈ r, isIdent x = true) → lastSeg r ≠ p →
      Core p os (g ++ '_' :: r) := by
    intro g r hg hr hl
    refine ⟨fun x hx => ?_, by rw [lastSeg_us]; exact hl, fun k o hk => inst_not_self hg (ho o hk) k⟩
    have := getLast?_mem' hx
    simp only [List.mem_append, List.mem_cons] at this
    rcases this with hx | rfl | hx
    · exact (hg.ident x hx).1
    · decide
    · exact hr x hx
  induction h generalizing b with
  | prim k hc hz _ oc oz =>
    intro d hd
    refine ⟨_, d, rfl, hd, ?_, ?_, ?_, ?_⟩
    · cases b <;> cases k <;> decide
    · have : ∀ (b : Bool) (k : Prim), (match (if b then k.cText else k.zText).toList.getLast? with
          | some x => isIdent x | none => true) = true := by
        intro b k; cases b <;> cases k <;> decide
      intro x hx
      have h2 := this b k
      rw [hx] at h2
      exact h2
    · cases b
      · exact hz
      · exact hc
    · intro n o hn e
      cases n with
      | zero =>
        cases b
        · exact oz (by rw [hn, show k.zText.toList = o from e])
        · exact oc (by rw [hn, show k.cText.toList = o from e])
      | succ n =>
        have h1 : sliceKw <+: (if b then k.cText else k.zText).toList := ⟨slices n o, e.symm⟩
        revert h1
        cases b <;> cases k <;> decide
  | name n hn hi hl hs ho' =>
    intro d hd
    refine ⟨n, d, rfl, hd, hn, fun x hx => hi x (getLast?_mem' hx), hl, ?_⟩
    intro k o hk e
    cases k with
    | zero => exact ho' (by rw [hk, show n = o from e])
    | succ k => exact hs ⟨slices k o, e.symm⟩
  | par n hn hl ho' =>
    intro d hd
    refine ⟨n, d, rfl, hd, hn.ne, fun x hx => (hn.ident x (getLast?_mem' hx)).1, ?_, ?_⟩
    · rw [lastSeg_self hn.noUs]; exact hl
    · intro k o hk e
      cases k with
      | zero => exact ho' (by rw [hk, show n = o from e])
      | succ k => exact hn.noUs (by rw [e]; simp [slices, sliceKw])
  | ptr _ ih =>
    intro d hd
    obtain ⟨y, e, h1, h2, h3, h4⟩ := ih b [] Tl.nil
    exact ⟨y, e ++ (['*'] ++ d), by simp [txt, h1], h2.append (Tl.one.append hd), h3, h4⟩
  | arr n _ ih => intro d hd; exact ih b _ (hd.append (Tl.size n))
  | slice _ ih =>
    intro d hd
    obtain ⟨y, e, h1, h2, h3, h4⟩ := ih false [] Tl.nil
    refine ⟨sliceKw ++ y, e ++ d, by cases b <;> simp [txt, h1], h2.append hd, by simp [sliceKw], ?_, ?_, ?_⟩
    · intro x hx
      rw [last_append _ h3] at hx
      exact h4.last x hx
    · rw [show sliceKw ++ y = ['S', 'l', 'i', 'c', 'e'] ++ '_' :: y from rfl, lastSeg_us]
      exact h4.seg
    · intro k o hk e
      cases k with
      | zero => exact (ho o hk).noUs (by rw [show o = sliceKw ++ y from e.symm]; simp [sliceKw])
      | succ k => exact h4.self k o hk (List.append_cancel_left e)
  | @app t g hg ht _ =>
    intro d hd
    refine ⟨_, d, by cases b <;> rfl, hd, by simp, instCore g _ hg sanitize_mem ?_⟩
    rw [sanitize_eq (clean_noStruct ht false [] Tl.nil)]
    exact clean_seg hp ht [] Tl.nil
  | @app2 t u g hg ht hu _ _ =>
    intro d hd
    refine ⟨g ++ '_' :: (sanitize (txt false t []) ++ '_' :: sanitize (txt false u [])), d,
      by cases b <;> simp [txt], hd, by simp, instCore g _ hg ?_ ?_⟩
    · intro x hx
      simp only [List.mem_append, List.mem_cons] at hx
      rcases hx with hx | rfl | hx
      · exact sanitize_mem x hx
      · decide
      · exact sanitize_mem x hx
    · rw [lastSeg_us, sanitize_eq (clean_noStruct hu false [] Tl.nil)]
      exact clean_seg hp hu [] Tl.nil
  | const _ ih =>
    intro d hd
    obtain ⟨y, e, h1, h2, h3, h4⟩ := ih b [] Tl.nil
    refine ⟨"const ".toList ++ y, e ++ d, by cases b <;> simp [txt, h1], h2.append hd, by simp, ?_, ?_, ?_⟩
    · intro x hx
      rw [last_append _ h3] at hx
      exact h4.last x hx
    · by_cases hu : '_' ∈ y
      · rw [lastSeg_hasUs _ hu]; exact h4.seg
      · rw [lastSeg_self (by
          intro hh
          rcases List.mem_append.1 hh with hh | hh
          · revert hh; decide
          · exact hu hh)]
        intro e
        have := (hp.ident ' ' (by rw [← e]; exact List.mem_append_left _ (by decide))).1
        revert this; decide
    · intro k o hk e
      cases k with
      | zero =>
        have := ((ho o hk).ident ' ' (by
          rw [show o = _ from e.symm]; exact List.mem_append_left _ (by decide))).1
        revert this; decide
      | succ k => simp [slices, sliceKw] at e

/-- A type that stays has a text that stays. -/
theorem replace_clean (hp : Param p) (ho : ∀ os ns, st = some (os, ns) → Tpl os) {t : Ty}
    (h : Clean p (st.map (·.1)) t) (b : Bool) {d : Name} (hd : Tl d) :
    replaceTypeStr p c st (txt b t d) = txt b t d := by
  have ho' : ∀ o, st.map (·.1) = some o → Tpl o := by
    intro o e
    cases hst : st with
    | none => rw [hst] at e; cases e
    | some q =>
      rw [hst] at e
      obtain ⟨o', ns⟩ := q
      simp only [Option.map_some, Option.some.injEq] at e
      subst e
      exact ho _ ns hst
  obtain ⟨y, e, h1, h2, -, h4⟩ := clean_core hp ho' h b d hd
  rw [h1]
  exact replace_still hp ho _ y e rfl h2 h4

end Verif.Generics
