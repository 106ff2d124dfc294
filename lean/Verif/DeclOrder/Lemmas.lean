import Verif.DeclOrder.Model

/-! # The dependency test on type texts -/

namespace Verif.DeclOrder
open Spec

/-- a character of an identifier -/
def idc (c : Char) : Bool := c.isAlphanum || c = '_'

/-- the text does not go on with an identifier character -/
def Stop (r : List Char) : Prop := ∀ c, r.head? = some c → idc c = false

theorem ident_idc {n : Name} (h : Ident n) : ∀ c ∈ n, idc c = true := fun c hc => by
  have := h.2 c hc
  simp only [idc, Bool.or_eq_true, decide_eq_true_eq]
  exact this

theorem space_stop {c : Char} (h : isSpace c = true) : idc c = false := by
  simp only [isSpace, Bool.or_eq_true, decide_eq_true_eq] at h
  rcases h with ((((h | h) | h) | h) | h) | h
  · subst h; rfl
  · subst h; rfl
  · subst h; rfl
  · have : c = Char.ofNat 11 := by rw [← h, Char.ofNat_toNat]
    subst this; rfl
  · have : c = Char.ofNat 12 := by rw [← h, Char.ofNat_toNat]
    subst this; rfl
  · subst h; rfl

/-- a word that leads a text is its first word -/
theorem word_unique : ∀ (w m r s : List Char), (∀ c ∈ w, idc c = true) → (∀ c ∈ m, idc c = true) →
    Stop r → Stop s → w ++ r = m ++ s → m = w
  | [], [], _, _, _, _, _, _, _ => rfl
  | [], c :: m, r, s, _, hm, hr, _, h => by
      have : r.head? = some c := by rw [show r = c :: (m ++ s) from h]; rfl
      have := hr c this
      rw [hm c (by simp)] at this; cases this
  | c :: w, [], r, s, hw, _, _, hs, h => by
      have : s.head? = some c := by rw [show s = c :: (w ++ r) from h.symm]; rfl
      have := hs c this
      rw [hw c (by simp)] at this; cases this
  | c :: w, d :: m, r, s, hw, hm, hr, hs, h => by
      have h' : c = d ∧ w ++ r = m ++ s := by simpa using h
      rw [h'.1, word_unique w m r s (fun x hx => hw x (by simp [hx])) (fun x hx => hm x (by simp [hx])) hr hs h'.2]

theorem leads_iff {m s : Name} : leads m s = true ↔
    ∃ r, s = m ++ r ∧ ∀ c, r.head? = some c → c = '[' ∨ isSpace c = true := by
  unfold leads
  rw [Bool.and_eq_true, List.isPrefixOf_iff_prefix]
  constructor
  · rintro ⟨⟨r, rfl⟩, h⟩
    rw [List.drop_left] at h
    refine ⟨r, rfl, fun c hc => ?_⟩
    cases r with
    | nil => cases hc
    | cons d r => cases hc; simpa using h
  · rintro ⟨r, rfl, h⟩
    refine ⟨⟨r, rfl⟩, ?_⟩
    rw [List.drop_left]
    cases r with
    | nil => rfl
    | cons d r => simpa using h d rfl

theorem leads_word {w r m : Name} (hw : ∀ c ∈ w, idc c = true) (hr : Stop r)
    (hm : ∀ c ∈ m, idc c = true) (h : leads m (w ++ r) = true) : m = w := by
  obtain ⟨s, h1, h2⟩ := leads_iff.1 h
  refine word_unique w m r s hw hm hr ?_ h1
  intro c hc
  rcases h2 c hc with rfl | h
  · rfl
  · exact space_stop h

theorem clean_word {w r : Name} (hw : ∀ c ∈ w, idc c = true) (hr : Stop r)
    (h : w ≠ "struct".toList ∧ w ≠ "enum".toList ∧ w ≠ "union".toList) : clean (w ++ r) = w ++ r := by
  have key : ∀ k : List Char, (∀ c ∈ k, idc c = true) → w ≠ k →
      (k ++ [' ']).isPrefixOf (w ++ r) = false := by
    intro k hk hne
    rw [Bool.eq_false_iff]
    intro hc
    rw [List.isPrefixOf_iff_prefix] at hc
    obtain ⟨s, hs⟩ := hc
    refine hne (word_unique w k r (' ' :: s) hw hk hr ?_ (by rw [← hs]; simp)).symm
    intro c hc; cases hc; rfl
  unfold clean
  rw [show "struct ".toList = "struct".toList ++ [' '] from rfl,
    show "enum ".toList = "enum".toList ++ [' '] from rfl,
    show "union ".toList = "union".toList ++ [' '] from rfl,
    key _ (by decide) h.1, key _ (by decide) h.2.1, key _ (by decide) h.2.2]
  simp

theorem textDepends_star {s m : Name} (h : '*' ∈ s) : textDepends s m = false := by
  unfold textDepends
  rw [if_pos (by simpa using h)]

theorem textDepends_eq {s m : Name} (h : '*' ∉ s) : textDepends s m = leads m (clean s) := by
  unfold textDepends
  rw [if_neg (by simpa using h)]

theorem textDepends_word {w r m : Name} (hw : ∀ c ∈ w, idc c = true) (hr : Stop r)
    (hm : ∀ c ∈ m, idc c = true)
    (hk : w ≠ "struct".toList ∧ w ≠ "enum".toList ∧ w ≠ "union".toList)
    (h : textDepends (w ++ r) m = true) : m = w := by
  by_cases hs : '*' ∈ w ++ r
  · rw [textDepends_star hs] at h; cases h
  · rw [textDepends_eq hs, clean_word hw hr hk] at h
    exact leads_word hw hr hm h

theorem idc_star {w : Name} (hw : ∀ c ∈ w, idc c = true) : '*' ∉ w := fun h => by
  have := hw _ h; revert this; decide

/-- array sizes: nothing, or text from `[` on, without a star -/
def Dims (d : Name) : Prop := '*' ∉ d ∧ (d = [] ∨ d.head? = some '[')

theorem Dims.nil : Dims [] := ⟨by simp, .inl rfl⟩

theorem Dims.append {d e : Name} (hd : Dims d) (he : Dims e) : Dims (d ++ e) := by
  refine ⟨by simp [hd.1, he.1], ?_⟩
  rcases hd.2 with rfl | h
  · simpa using he.2
  · right
    cases d with
    | nil => cases h
    | cons c d => simpa using h

theorem Dims.dim (n : Nat) : Dims (dim n) := by
  refine ⟨?_, .inr rfl⟩
  unfold DeclOrder.dim
  have : (toString n).toList = Nat.toDigits 10 n := Nat.toList_repr
  rw [this]
  intro h
  rcases List.mem_append.1 h with h | h
  · rcases List.mem_cons.1 h with h | h
    · revert h; decide
    · have := Nat.isDigit_of_mem_toDigits (by decide) (by decide) h
      revert this; decide
  · revert h; decide

theorem Dims.stop {d : Name} (hd : Dims d) : Stop d := fun c hc => by
  rcases hd.2 with rfl | h
  · cases hc
  · rw [h] at hc; cases hc; rfl

theorem textDepends_self {w d : Name} (hw : ∀ c ∈ w, idc c = true) (hd : Dims d)
    (hk : w ≠ "struct".toList ∧ w ≠ "enum".toList ∧ w ≠ "union".toList) :
    textDepends (w ++ d) w = true := by
  have hs : '*' ∉ w ++ d := by simp [idc_star hw, hd.1]
  rw [textDepends_eq hs, clean_word hw hd.stop hk, leads_iff]
  refine ⟨d, rfl, fun c hc => .inl ?_⟩
  rcases hd.2 with rfl | h
  · cases hc
  · rw [h] at hc; cases hc; rfl

theorem reserved_kw {w : Name} (h : w ∉ reserved) :
    w ≠ "struct".toList ∧ w ≠ "enum".toList ∧ w ≠ "union".toList := by
  refine ⟨?_, ?_, ?_⟩ <;> rintro rfl <;> exact h (by decide)

/-- first words of the built-in types -/
theorem prim_word (p : Prim) (z : Bool) : ∃ w r, (if z then p.zText else p.cText).toList = w ++ r ∧
    (∀ c ∈ w, idc c = true) ∧ w ∈ reserved ∧
    (w ≠ "struct".toList ∧ w ≠ "enum".toList ∧ w ≠ "union".toList) ∧
    (r = [] ∨ r.head? = some ' ') := by
  refine ⟨(if z then p.zText else p.cText).toList.takeWhile idc,
    (if z then p.zText else p.cText).toList.dropWhile idc, (List.takeWhile_append_dropWhile).symm, ?_⟩
  cases p <;> cases z <;> decide +kernel

theorem Stop.append {r d : Name} (h : r = [] ∨ r.head? = some ' ') (hd : Dims d) : Stop (r ++ d) := by
  rcases h with rfl | h
  · exact hd.stop
  · intro c hc
    cases r with
    | nil => cases h
    | cons x r =>
        cases h
        cases hc
        rfl

theorem no_val_weak {us : List Use} {m : Name} : .val m ∉ us.map Use.weak := fun h => by
  obtain ⟨u, _, hu⟩ := List.mem_map.1 h
  cases u <;> cases hu

/-- the by-value names are the ones the test can see: no `const` in front of a type of the
program -/
def OkC : Ty → Prop
  | .arr t _ => OkC t
  | .const t => ∀ m, .val m ∉ uses t
  | .alias _ t => OkC t
  | .named _ n => Ident n ∧ n ∉ reserved
  | _ => True

/-- the same for payloads: neither `const` nor an opaque alias in front of
it; `B` are the types of the program -/
def OkZ (B : Name → Prop) : Ty → Prop
  | .arr t _ => OkZ B t
  | .const t => ∀ m, .val m ∉ uses t
  | .alias n t => (∀ m, .val m ∉ uses t) ∧ (Ident n ∧ n ∉ reserved) ∧ ¬ B n
  | .named _ n => Ident n ∧ n ∉ reserved
  | _ => True

/-- names that can be asked for -/
structure Target (m : Name) : Prop where
  ident : Ident m
  fresh : m ∉ reserved
  noSlice : ¬ "Slice_".toList <+: m

theorem slice_lead {m r : Name} (hm : Target m) : textDepends ("Slice_".toList ++ r) m = false := by
  by_cases hs : '*' ∈ "Slice_".toList ++ r
  · exact textDepends_star hs
  · rw [textDepends_eq hs]
    have hc : clean ("Slice_".toList ++ r) = "Slice_".toList ++ r := by
      unfold clean
      rw [if_neg, if_neg, if_neg] <;>
        · intro h
          rw [List.isPrefixOf_iff_prefix] at h
          obtain ⟨s, hs⟩ := h
          simp at hs
    rw [hc, Bool.eq_false_iff]
    intro h
    obtain ⟨s, h1, h2⟩ := leads_iff.1 h
    rcases List.append_eq_append_iff.1 h1 with ⟨a, h3, h4⟩ | ⟨a, h3, h4⟩
    · exact hm.noSlice ⟨a, h3.symm⟩
    · cases a with
      | nil => exact hm.noSlice ⟨[], by simpa using h3⟩
      | cons c a =>
          have hc : c ∈ "Slice_".toList := by rw [h3]; simp
          have hi : ∀ c ∈ "Slice_".toList, idc c = true := by decide
          rcases h2 c (by rw [h4]; rfl) with rfl | h
          · exact absurd (hi _ hc) (by decide)
          · have := hi _ hc
            rw [space_stop h] at this; cases this

theorem const_lead {m r : Name} (hm : Target m) : textDepends ("const ".toList ++ r) m = false := by
  rw [Bool.eq_false_iff]
  intro h
  refine hm.fresh ?_
  rw [textDepends_word (w := "const".toList) (r := ' ' :: r) (by decide)
    (by intro c hc; cases hc; rfl) (ident_idc hm.ident) (by decide) h]
  decide

theorem prim_lead {m d : Name} (p : Prim) (z : Bool) (hm : Target m) (hd : Dims d) :
    textDepends ((if z then p.zText else p.cText).toList ++ d) m = false := by
  obtain ⟨w, r, h1, h2, h3, h4, h5⟩ := prim_word p z
  rw [Bool.eq_false_iff, h1, List.append_assoc]
  intro h
  have := textDepends_word h2 (Stop.append h5 hd) (ident_idc hm.ident) h4 h
  exact hm.fresh (this ▸ h3)

theorem named_lead {m n d : Name} (hm : Target m) (hn : Ident n ∧ n ∉ reserved) (hd : Dims d) :
    textDepends (n ++ d) m = true ↔ m = n :=
  ⟨textDepends_word (ident_idc hn.1) hd.stop (ident_idc hm.ident) (reserved_kw hn.2),
    fun h => by rw [h]; exact textDepends_self (ident_idc hn.1) hd (reserved_kw hn.2)⟩

theorem struct_lead {m n d : Name} (hm : Target m) (hn : Ident n ∧ n ∉ reserved) (hd : Dims d) :
    textDepends ("struct ".toList ++ n ++ d) m = true ↔ m = n := by
  have hs : '*' ∉ "struct ".toList ++ n ++ d := by
    simp only [List.mem_append, not_or]
    exact ⟨⟨by decide, idc_star (ident_idc hn.1)⟩, hd.1⟩
  have hs' : '*' ∉ n ++ d := by simp [idc_star (ident_idc hn.1), hd.1]
  rw [← named_lead hm hn hd, textDepends_eq hs, textDepends_eq hs',
    clean_word (ident_idc hn.1) hd.stop (reserved_kw hn.2)]
  rw [clean, if_pos (by rw [List.isPrefixOf_iff_prefix, List.append_assoc]; exact ⟨_, rfl⟩), List.append_assoc]
  rw [show (7 : Nat) = "struct ".toList.length from rfl, List.drop_left]

/-- C60: a type written with `struct`, `enum` or `union` is found under its name, and under no other -/
theorem keyword_lead {m n d : Name} (hm : Target m) (hn : Ident n ∧ n ∉ reserved) (hd : Dims d) (kw : Name)
    (hk : kw = "struct ".toList ∨ kw = "enum ".toList ∨ kw = "union ".toList) :
    textDepends (kw ++ n ++ d) m = true ↔ m = n := by
  have hs' : '*' ∉ n ++ d := by simp [idc_star (ident_idc hn.1), hd.1]
  have hs : '*' ∉ kw ++ n ++ d := by
    simp only [List.mem_append, not_or]
    refine ⟨⟨?_, idc_star (ident_idc hn.1)⟩, hd.1⟩
    rcases hk with rfl | rfl | rfl <;> decide
  have hc : clean (kw ++ n ++ d) = n ++ d := by
    rcases hk with rfl | rfl | rfl <;> simp [clean]
  rw [← named_lead hm hn hd, textDepends_eq hs, textDepends_eq hs',
    clean_word (ident_idc hn.1) hd.stop (reserved_kw hn.2), hc]

/-- For a struct's field the test finds exactly the types contained by value. -/
theorem cText_depends {m : Name} (hm : Target m) : ∀ (t : Ty) (d e : Name), OkC t → Dims d → Dims e →
    (textDepends (cTextD t d ++ e) m = true ↔ .val m ∈ uses t)
  | .prim p, d, e, _, hd, he => by
      have := prim_lead p false hm (hd.append he)
      simp only [Bool.false_eq_true, if_false] at this
      simp [cTextD, uses, List.append_assoc, this]
  | .named kw n, d, e, h, hd, he => by
      cases kw
      · have := named_lead hm h (hd.append he)
        simp only [cTextD, uses, Bool.false_eq_true, if_false, List.nil_append, List.append_assoc, this]
        simp
      · have := struct_lead hm h (hd.append he)
        simp only [List.append_assoc] at this
        simp only [cTextD, uses, if_true, List.append_assoc, this]
        simp
  | .ptr t, d, e, _, _, _ => by
      rw [cTextD, textDepends_star (by simp)]
      simp [uses, no_val_weak]
  | .arr t n, d, e, h, hd, he => by
      rw [cTextD, uses]
      exact cText_depends hm t _ e h (hd.append (Dims.dim n)) he
  | .slice t, d, e, _, _, _ => by
      rw [cTextD, List.append_assoc, List.append_assoc, slice_lead hm, uses]
      simp only [Bool.false_eq_true, List.mem_singleton, false_iff]
      intro h
      cases h
      exact hm.noSlice ⟨_, rfl⟩
  | .rawFn r a, d, e, _, _, _ => by
      rw [cTextD, textDepends_star (by simp)]
      simp [uses, no_val_weak]
  | .const t, d, e, h, _, _ => by
      rw [cTextD, List.append_assoc, List.append_assoc, const_lead hm, uses]
      simp [h m]
  | .alias n t, d, e, h, hd, he => by
      rw [cTextD, List.append_assoc, uses]
      exact cText_depends hm t [] _ h Dims.nil (hd.append he)

/-- For a payload the test finds exactly the types contained by value. -/
theorem zText_depends {B : Name → Prop} {m : Name} (hm : Target m) (hB : B m) :
    ∀ (t : Ty) (d : Name), OkZ B t → Dims d →
    (textDepends (zTextD t d) m = true ↔ .val m ∈ uses t)
  | .prim p, d, _, hd => by
      have := prim_lead p true hm hd
      simp only [if_true] at this
      simp [zTextD, uses, this]
  | .named kw n, d, h, hd => by
      have := named_lead hm h hd
      simp only [zTextD, uses, this]
      simp
  | .ptr t, d, _, _ => by
      rw [zTextD, textDepends_star (by simp)]
      simp [uses, no_val_weak]
  | .arr t n, d, h, hd => by
      rw [zTextD, uses]
      exact zText_depends hm hB t _ h (hd.append (Dims.dim n))
  | .slice t, d, _, _ => by
      rw [zTextD, List.append_assoc, slice_lead hm, uses]
      simp only [Bool.false_eq_true, List.mem_singleton, false_iff]
      intro h
      cases h
      exact hm.noSlice ⟨_, rfl⟩
  | .rawFn r a, d, _, _ => by
      rw [zTextD, textDepends_star (by simp)]
      simp [uses, no_val_weak]
  | .const t, d, h, _ => by
      rw [zTextD, List.append_assoc, const_lead hm, uses]
      simp [h m]
  | .alias n t, d, h, hd => by
      have := named_lead hm h.2.1 hd
      simp only [zTextD, uses, this]
      simp only [h.1 m, iff_false]
      rintro rfl
      exact h.2.2 hB

end Verif.DeclOrder
