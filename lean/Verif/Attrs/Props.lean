import Verif.Attrs.Model

/-! # Attributes of functions and structs: properties (C182) -/

namespace Verif.Attrs
open Verif Spec

/-! ## Reading -/

/-- the effect of one written attribute -/
def apply (a : Attrs) : Src → Attrs
  | .plain w => { a with on := w :: a.on }
  | .deprecated _ => a
  | .section_ s => { a with section_ := some s }
  | .align ds => { a with align := decVal ds }
  | .custom w => { a with custom := (w, []) :: a.custom }
  | .customArgs w t ts => { a with custom := (w, (t :: ts).map text) :: a.custom }

/-- what may follow: not a parenthesis -/
def NoParen (rest : List Tok) : Prop := ∀ r, rest ≠ .lp :: r

theorem customArgs_ok : ∀ (ts : List Tok) (t : Tok) (acc : List String) (rest : List Tok),
    customArgs acc (t :: (commaText ts ++ .rp :: rest)) = .ok (acc ++ (t :: ts).map text, rest)
  | [], t, acc, rest => by simp [commaText, customArgs]
  | u :: ts, t, acc, rest => by
      have ih := customArgs_ok ts u (acc ++ [text t]) rest
      rw [commaText, List.cons_append, List.cons_append, customArgs, ih]
      simp

theorem custom_facts {w : String} (h : w ∉ special) :
    w ∉ plain ∧ w ≠ "deprecated" ∧ w ≠ "section" ∧ w ≠ "vector" ∧ w ≠ "align" := by
  refine ⟨fun hm => h (List.mem_append_left _ hm), ?_, ?_, ?_, ?_⟩ <;> rintro rfl <;> exact h (by decide)

theorem takeWhile_all {ds : List Char} (h : ∀ c ∈ ds, c.isDigit = true) : ds.takeWhile Char.isDigit = ds := by
  induction ds with
  | nil => rfl
  | cons c ds ih =>
      rw [List.takeWhile_cons, if_pos (h c (by simp)), ih (fun x hx => h x (by simp [hx]))]

theorem attr_src (a : Attrs) (s : Src) (hs : s.Ok) (rest : List Tok) (hr : NoParen rest) :
    ∃ w r, s.text ++ rest = .at_ :: .ident w :: r ∧ attr a w r = .ok (apply a s, rest) := by
  cases s with
  | plain w =>
      refine ⟨w, rest, rfl, ?_⟩
      have hs : w ∈ plain := hs
      rw [attr, if_pos hs]; rfl
  | deprecated m =>
      refine ⟨_, _, rfl, ?_⟩
      rw [attr, if_neg (by decide), if_pos rfl]; rfl
  | section_ s =>
      refine ⟨_, _, rfl, ?_⟩
      rw [attr, if_neg (by decide), if_neg (by decide), if_pos rfl]; rfl
  | align ds =>
      refine ⟨_, _, rfl, ?_⟩
      rw [attr, if_neg (by decide), if_neg (by decide), if_neg (by decide), if_neg (by decide), if_pos rfl]
      simp [alignAttr, close, apply, atoi, takeWhile_all hs.1, decVal]
  | custom w =>
      obtain ⟨h1, h2, h3, h4, h5⟩ := custom_facts hs
      refine ⟨w, rest, rfl, ?_⟩
      rw [attr, if_neg h1, if_neg h2, if_neg h3, if_neg h4, if_neg h5]
      unfold customAttr
      split
      · exact absurd rfl (hr _)
      · rfl
  | customArgs w t ts =>
      obtain ⟨h1, h2, h3, h4, h5⟩ := custom_facts hs
      refine ⟨w, .lp :: t :: (commaText ts ++ .rp :: rest), by simp [Src.text], ?_⟩
      rw [attr, if_neg h1, if_neg h2, if_neg h3, if_neg h4, if_neg h5]
      simp [customAttr, customArgs_ok, apply]

/-- the text of several attributes -/
def srcText (srcs : List Src) : List Tok := (srcs.map Src.text).flatten

theorem srcText_noParen (srcs : List Src) (rest : List Tok) (hr : NoParen rest) : NoParen (srcText srcs ++ rest) := by
  cases srcs with
  | nil => exact hr
  | cons s srcs => intro r; cases s <;> simp [srcText, Src.text]

theorem attrs_src : ∀ (srcs : List Src) (a : Attrs) (n : Nat) (rest : List Tok), (∀ s ∈ srcs, s.Ok) →
    NoParen rest → (∀ r, rest ≠ .at_ :: r) → srcs.length < n →
    attrs n a (srcText srcs ++ rest) = .ok (srcs.foldl apply a, rest)
  | [], a, n, rest, _, _, hat, hn => by
      obtain ⟨n, rfl⟩ : ∃ m, n = m + 1 := ⟨n - 1, by omega⟩
      show attrs (n + 1) a rest = _
      unfold attrs
      split
      · exact absurd rfl (hat _)
      · exact absurd rfl (hat _)
      · rfl
  | s :: srcs, a, n, rest, hs, hr, hat, hn => by
      obtain ⟨n, rfl⟩ : ∃ m, n = m + 1 := ⟨n - 1, by omega⟩
      obtain ⟨w, r, e, ha⟩ := attr_src a s (hs s (by simp)) (srcText srcs ++ rest) (srcText_noParen srcs rest hr)
      have ih := attrs_src srcs (apply a s) n rest (fun x hx => hs x (by simp [hx])) hr hat
        (by simp only [List.length_cons] at hn; omega)
      have e2 : srcText (s :: srcs) ++ rest = .at_ :: .ident w :: r := by
        rw [← e]; simp [srcText]
      rw [e2, attrs]
      simp [ha, ih]

theorem srcText_len (srcs : List Src) : srcs.length ≤ (srcText srcs).length := by
  induction srcs with
  | nil => simp
  | cons s srcs ih =>
      have : 1 ≤ s.text.length := by cases s <;> simp [Src.text]
      simp only [srcText, List.map_cons, List.flatten_cons, List.length_append, List.length_cons] at ih ⊢
      omega

theorem fnOutput_eq (srcs : List Src) (hs : ∀ s ∈ srcs, s.Ok) (rest : List Tok) (hr : NoParen rest)
    (hat : ∀ r, rest ≠ .at_ :: r) :
    fnOutput (srcText srcs ++ rest) = .ok (fnGroups (srcs.foldl apply none_)) ∧
    structOutput (srcText srcs ++ rest) = .ok (structGroups (srcs.foldl apply none_)) := by
  have := attrs_src srcs none_ ((srcText srcs ++ rest).length + 1) rest hs hr hat
    (by have := srcText_len srcs; simp only [List.length_append]; omega)
  constructor
  · simp only [fnOutput, this, Res.ok_bind]
  · simp only [structOutput, this, Res.ok_bind]

/-! ## What has been read -/

theorem on_iff (srcs : List Src) (a : Attrs) (w : String) :
    w ∈ (srcs.foldl apply a).on ↔ w ∈ a.on ∨ .plain w ∈ srcs := by
  induction srcs generalizing a with
  | nil => simp
  | cons s srcs ih =>
      rw [List.foldl_cons, ih]
      cases s <;> simp [apply, List.mem_cons, or_assoc, or_comm, or_left_comm, eq_comm]

theorem custom_iff (srcs : List Src) (a : Attrs) (i : Item) :
    i ∈ (srcs.foldl apply a).custom ↔ i ∈ a.custom ∨
      ∃ s ∈ srcs, (∃ w, s = .custom w ∧ i = (w, [])) ∨ (∃ w t ts, s = .customArgs w t ts ∧ i = (w, (t :: ts).map text)) := by
  induction srcs generalizing a with
  | nil => simp
  | cons s srcs ih =>
      rw [List.foldl_cons, ih]
      cases s with
      | custom w =>
          simp only [apply, List.mem_cons, exists_eq_or_imp, Src.custom.injEq, reduceCtorEq, false_and, exists_false,
            or_false, exists_eq_left']
          constructor
          · rintro ((h | h) | h)
            · exact .inr (.inl h)
            · exact .inl h
            · exact .inr (.inr h)
          · rintro (h | h | h)
            · exact .inl (.inr h)
            · exact .inl (.inl h)
            · exact .inr h
      | customArgs w t ts =>
          simp only [apply, List.mem_cons, exists_eq_or_imp, Src.customArgs.injEq, reduceCtorEq, false_and,
            exists_false, false_or]
          constructor
          · rintro ((h | h) | h)
            · exact .inr (.inl ⟨w, t, ts, ⟨rfl, rfl, rfl⟩, h⟩)
            · exact .inl h
            · exact .inr (.inr h)
          · rintro (h | ⟨w', t', ts', ⟨rfl, rfl, rfl⟩, h⟩ | h)
            · exact .inl (.inr h)
            · exact .inl (.inl h)
            · exact .inr h
      | _ => simp [apply]

theorem section_iff (srcs : List Src) (a : Attrs) (hu : ∀ s s', .section_ s ∈ srcs → .section_ s' ∈ srcs → s = s')
    (ha : a.section_ = none ∨ ∀ s, a.section_ = some s → ∀ s', .section_ s' ∈ srcs → s = s') (s : String) :
    (srcs.foldl apply a).section_ = some s ↔ a.section_ = some s ∨ .section_ s ∈ srcs := by
  induction srcs generalizing a with
  | nil => simp
  | cons x srcs ih =>
      have hu' : ∀ s s', .section_ s ∈ srcs → .section_ s' ∈ srcs → s = s' :=
        fun p q hp hq => hu p q (by simp [hp]) (by simp [hq])
      rw [List.foldl_cons]
      by_cases hx : ∃ v, x = .section_ v
      · obtain ⟨v, rfl⟩ := hx
        rw [ih (apply a (.section_ v)) hu' (.inr (by
          intro p hp q hq
          simp only [apply, Option.some.injEq] at hp
          subst hp
          exact hu v q (by simp) (by simp [hq])))]
        simp only [apply, Option.some.injEq, List.mem_cons, Src.section_.injEq]
        constructor
        · rintro (h | h)
          · exact .inr (.inl h.symm)
          · exact .inr (.inr h)
        · rintro (h | h | h)
          · rcases ha with ha | ha
            · rw [ha] at h; cases h
            · exact .inl (ha s h v (by simp)).symm
          · exact .inl h.symm
          · exact .inr h
      · have e : (apply a x).section_ = a.section_ := by
          cases x with
          | section_ v => exact absurd ⟨v, rfl⟩ hx
          | _ => rfl
        have hm : Src.section_ s ∈ x :: srcs ↔ Src.section_ s ∈ srcs := by
          simp only [List.mem_cons]
          constructor
          · rintro (h | h)
            · exact absurd ⟨s, h.symm⟩ hx
            · exact h
          · exact .inr
        rw [ih (apply a x) hu' (by
          rw [e]
          rcases ha with ha | ha
          · exact .inl ha
          · exact .inr (fun p hp q hq => ha p hp q (by simp [hq]))), e, hm]

theorem align_iff (srcs : List Src) (a : Attrs)
    (hu : ∀ d d', .align d ∈ srcs → .align d' ∈ srcs → d = d') (n : Nat) (hn : n ≠ 0)
    (hok : ∀ s ∈ srcs, s.Ok) (ha : a.align = 0 ∨ ∀ d, .align d ∈ srcs → decVal d = a.align) :
    (srcs.foldl apply a).align = n ↔ a.align = n ∨ ∃ d, .align d ∈ srcs ∧ decVal d = n := by
  induction srcs generalizing a with
  | nil => simp
  | cons x srcs ih =>
      have hu' : ∀ d d', .align d ∈ srcs → .align d' ∈ srcs → d = d' :=
        fun p q hp hq => hu p q (by simp [hp]) (by simp [hq])
      rw [List.foldl_cons]
      by_cases hx : ∃ v, x = .align v
      · obtain ⟨v, rfl⟩ := hx
        rw [ih (apply a (.align v)) hu' (fun s hs => hok s (by simp [hs])) (.inr (by
          intro d hd
          rw [hu d v (by simp [hd]) (by simp)]
          rfl))]
        simp only [apply, List.mem_cons, Src.align.injEq]
        constructor
        · rintro (h | ⟨d, hd, h⟩)
          · exact .inr ⟨v, .inl rfl, h⟩
          · exact .inr ⟨d, .inr hd, h⟩
        · rintro (h | ⟨d, hd | hd, h⟩)
          · rcases ha with ha | ha
            · omega
            · exact .inl ((ha v (by simp)).trans h)
          · exact .inl (hd ▸ h)
          · exact .inr ⟨d, hd, h⟩
      · have e : (apply a x).align = a.align := by
          cases x with
          | align v => exact absurd ⟨v, rfl⟩ hx
          | _ => rfl
        have hm : ∀ d, Src.align d ∈ x :: srcs ↔ Src.align d ∈ srcs := by
          intro d
          simp only [List.mem_cons]
          constructor
          · rintro (h | h)
            · exact absurd ⟨d, h.symm⟩ hx
            · exact h
          · exact .inr
        rw [ih (apply a x) hu' (fun s hs => hok s (by simp [hs])) (by
          rw [e]
          rcases ha with ha | ha
          · exact .inl ha
          · exact .inr (fun d hd => ha d (by simp [hd]))), e]
        simp only [hm]

theorem vector_zero (srcs : List Src) (a : Attrs) : (srcs.foldl apply a).vector = a.vector := by
  induction srcs generalizing a with
  | nil => rfl
  | cons s srcs ih => rw [List.foldl_cons, ih]; cases s <;> rfl

/-! ## Printing -/

/-- attributes with separators between them -/
def joinL : List Item → List Out
  | [] => []
  | [i] => [.item i]
  | i :: j :: l => .item i :: .sep :: joinL (j :: l)

theorem readList_join : ∀ (l : List Item), l ≠ [] → readList (joinL l) = some l
  | [], h => absurd rfl h
  | [i], _ => rfl
  | i :: j :: l, _ => by
      rw [joinL, readList, readList_join (j :: l) (by simp)]
      rfl

theorem joinL_snoc : ∀ (l : List Item) (i : Item), l ≠ [] → joinL (l ++ [i]) = joinL l ++ [.sep, .item i]
  | [], _, h => absurd rfl h
  | [j], i, _ => rfl
  | j :: k :: l, i, _ => by
      have ih := joinL_snoc (k :: l) i (by simp)
      rw [List.cons_append] at ih
      rw [List.cons_append, List.cons_append, joinL, ih]
      simp [joinL]

/-- `first` tells whether nothing is printed yet -/
def Sync (st : Bool × List Out) (l : List Item) : Prop := st.1 = l.isEmpty ∧ st.2 = joinL l

theorem push_sync {st : Bool × List Out} {l : List Item} (h : Sync st l) (i : Item) : Sync (push st i) (l ++ [i]) := by
  obtain ⟨h1, h2⟩ := h
  refine ⟨by simp [push], ?_⟩
  cases l with
  | nil => simp [push, h1, h2, joinL]
  | cons j l =>
      rw [joinL_snoc _ _ (by simp)]
      simp [push, h1, h2]

theorem pushes_sync : ∀ (is : List Item) {st : Bool × List Out} {l : List Item}, Sync st l →
    Sync (is.foldl push st) (l ++ is)
  | [], _, _, h => by simpa using h
  | i :: is, st, l, h => by
      have := pushes_sync is (push_sync h i)
      simpa using this

theorem flags_sync (on : List String) : ∀ (ws : List String) {st : Bool × List Out} {l : List Item}, Sync st l →
    Sync (ws.foldl (emitFlag on) st) (l ++ (ws.filter fun w => decide (w ∈ on)).map flagItem)
  | [], _, _, h => by simpa using h
  | w :: ws, st, l, h => by
      by_cases hw : w ∈ on
      · have := flags_sync on ws (push_sync h (flagItem w))
        simpa [emitFlag, hw] using this
      · have := flags_sync on ws h
        simpa [emitFlag, hw] using this

/-- the attributes of the flags that are set -/
def flagItems (on : List String) : List Item := (fnFlags.filter fun w => decide (w ∈ on)).map flagItem

/-- the attribute of the section -/
def sectionItems (s : Option String) : List Item := s.toList.map fun s => ("section", ["\"" ++ s ++ "\""])

/-- a section is the only attribute in front of custom ones -/
def Clash (a : Attrs) : Prop := a.section_.isSome = true ∧ a.custom ≠ [] ∧ ∀ w ∈ fnFlags, w ∉ a.on

theorem fnGroups_read (a : Attrs) (h : ¬ Clash a) :
    Carries (fnGroups a) (fun i => i ∈ flagItems a.on ++ sectionItems a.section_ ++ a.custom) := by
  have hf : Sync (fnFlags.foldl (emitFlag a.on) (true, [])) (flagItems a.on) := by
    have := flags_sync a.on fnFlags (st := (true, [])) (l := []) ⟨rfl, rfl⟩
    simpa [flagItems] using this
  have hany : fnFlags.any (fun w => decide (w ∈ a.on)) = true ↔ flagItems a.on ≠ [] := by
    rw [List.any_eq_true]
    constructor
    · rintro ⟨w, hw, h⟩ e
      simp only [flagItems, List.map_eq_nil_iff, List.filter_eq_nil_iff] at e
      exact e w hw h
    · intro e
      rcases Classical.em (∃ w ∈ fnFlags, decide (w ∈ a.on) = true) with h | h
      · exact h
      · exact absurd (by
          simp only [flagItems, List.map_eq_nil_iff, List.filter_eq_nil_iff]
          exact fun w hw hm => h ⟨w, hw, hm⟩) e
  have one : ∀ (l : List Item) (g : List Out), l ≠ [] → g = joinL l → Carries [g] (fun i => i ∈ l) := by
    intro l g hl hg
    exact ⟨[l], by simp [hg, readList_join l hl], by simp⟩
  unfold fnGroups
  by_cases hc : fnFlags.any (fun w => decide (w ∈ a.on)) = true ∨ a.section_.isSome = true
  · rw [if_pos (by simpa using hc)]
    apply one
    · intro e
      simp only [List.append_eq_nil_iff] at e
      rcases hc with hc | hc
      · exact (hany.mp hc) e.1.1
      · cases hs : a.section_ with
        | none => rw [hs] at hc; cases hc
        | some s => rw [hs] at e; simp [sectionItems] at e
    · cases hs : a.section_ with
      | none =>
          have := pushes_sync a.custom hf
          simpa [emitSection, sectionItems] using this.2
      | some s =>
          rw [hs] at hc
          by_cases hfl : flagItems a.on = []
          · have hcu : a.custom = [] := by
              rcases Classical.em (a.custom = []) with h' | h'
              · exact h'
              · refine absurd ⟨by rw [hs]; rfl, h', ?_⟩ h
                simp only [flagItems, List.map_eq_nil_iff, List.filter_eq_nil_iff] at hfl
                exact fun w hw hm => hfl w hw (by simp [hm])
            rw [hfl] at hf ⊢
            rw [hcu]
            simp [emitSection, sectionItems, hf.1, hf.2, joinL]
          · have h1 : (fnFlags.foldl (emitFlag a.on) (true, [])).1 = false := by
              rw [hf.1]; cases hfi : flagItems a.on with
              | nil => exact absurd hfi hfl
              | cons _ _ => rfl
            have h2 : Sync (emitSection (fnFlags.foldl (emitFlag a.on) (true, [])) (some s))
                (flagItems a.on ++ sectionItems (some s)) := by
              refine ⟨by simp [emitSection, sectionItems, h1], ?_⟩
              simp only [emitSection, sectionItems, h1, hf.2, Option.toList_some, List.map_cons, List.map_nil]
              rw [joinL_snoc _ _ hfl]
              simp
            exact (pushes_sync a.custom h2).2
  · rw [if_neg (by simpa using hc)]
    have hfl : flagItems a.on = [] := by
      rcases Classical.em (flagItems a.on = []) with h' | h'
      · exact h'
      · exact absurd (.inl (hany.mpr h')) hc
    have hs : a.section_ = none := by
      cases hs : a.section_ with
      | none => rfl
      | some s => exact absurd (.inr (by rw [hs]; rfl)) hc
    rw [hfl, hs]
    by_cases hcu : a.custom = []
    · rw [hcu]
      exact ⟨[], rfl, by simp [sectionItems]⟩
    · rw [if_neg (by simpa using hcu)]
      have := pushes_sync a.custom (st := (true, [])) (l := []) ⟨rfl, rfl⟩
      simpa [sectionItems] using one a.custom _ hcu (by simpa using this.2)

/-! ## The properties -/

theorem flag_facts (w : String) (on : List String) :
    (∃ i, i ∈ flagItems on ∧ i = flagItem w ∧ w ∈ fnFlags ∧ w ∈ on) ↔ w ∈ fnFlags ∧ w ∈ on := by
  constructor
  · rintro ⟨_, _, _, h⟩; exact h
  · intro h
    refine ⟨flagItem w, ?_, rfl, h⟩
    simp only [flagItems, List.mem_map, List.mem_filter, decide_eq_true_eq]
    exact ⟨w, h, rfl⟩

/-- C182 (partial), functions: the generated C has one well-formed list with exactly the attributes that
are written in front of the function: the flags C knows, the section and every attribute passed on,
with its arguments.  Missing: a section next to attributes that are passed on, without one of the
flags (`section_custom_violated`), and several sections. -/
theorem fn_attributes_partial (srcs : List Src) (hs : ∀ s ∈ srcs, s.Ok) (rest : List Tok) (hr : NoParen rest)
    (hat : ∀ r, rest ≠ .at_ :: r) (hu : ∀ s s', .section_ s ∈ srcs → .section_ s' ∈ srcs → s = s')
    (hc : (∃ s, .section_ s ∈ srcs) → (∃ w ∈ fnFlags, .plain w ∈ srcs) ∨
      ∀ s ∈ srcs, (∀ w, s ≠ .custom w) ∧ ∀ w t ts, s ≠ .customArgs w t ts) :
    ∃ gs, fnOutput (srcText srcs ++ rest) = .ok gs ∧ gs.length ≤ 1 ∧
      Carries gs (fun i => ∃ s ∈ srcs, fnItem s = some i) := by
  refine ⟨_, (fnOutput_eq srcs hs rest hr hat).1, ?_, ?_⟩
  · unfold fnGroups
    split
    · simp
    · split <;> simp
  · have hsec := section_iff srcs none_ hu (.inl rfl)
    have hno : ¬ Clash (srcs.foldl apply none_) := by
      rintro ⟨h1, h2, h3⟩
      obtain ⟨s, e⟩ := Option.isSome_iff_exists.mp h1
      have hm := (hsec s).mp e
      simp only [none_, reduceCtorEq, false_or] at hm
      rcases hc ⟨s, hm⟩ with ⟨w, hw, hp⟩ | h
      · exact h3 w hw ((on_iff srcs none_ w).mpr (.inr hp))
      · obtain ⟨i, hi⟩ := List.exists_mem_of_ne_nil _ h2
        rcases (custom_iff srcs none_ i).mp hi with h' | ⟨x, hx, ⟨w, rfl, _⟩ | ⟨w, t, ts, rfl, _⟩⟩
        · simp [none_] at h'
        · exact (h _ hx).1 w rfl
        · exact (h _ hx).2 w t ts rfl
    obtain ⟨iss, e, hi⟩ := fnGroups_read _ hno
    refine ⟨iss, e, fun i => (hi i).trans ?_⟩
    simp only [List.mem_append, flagItems, List.mem_map, List.mem_filter, decide_eq_true_eq, on_iff, custom_iff]
    constructor
    · rintro ((⟨w, ⟨hw, hp⟩, rfl⟩ | h) | h)
      · simp only [none_, List.not_mem_nil, false_or] at hp
        exact ⟨_, hp, by simp [fnItem, hw, flagItem]⟩
      · simp only [sectionItems, List.mem_map, Option.mem_toList] at h
        obtain ⟨s, h1, rfl⟩ := h
        have := (hsec s).mp h1
        simp only [none_, reduceCtorEq, false_or] at this
        exact ⟨_, this, rfl⟩
      · rcases h with h | ⟨x, hx, ⟨w, rfl, rfl⟩ | ⟨w, t, ts, rfl, rfl⟩⟩
        · simp [none_] at h
        · exact ⟨_, hx, rfl⟩
        · exact ⟨_, hx, rfl⟩
    · rintro ⟨s, hm, hi⟩
      cases s with
      | plain w =>
          simp only [fnItem] at hi
          split at hi
          · rename_i hw
            left; left
            refine ⟨w, ⟨hw, .inr hm⟩, ?_⟩
            simpa [flagItem] using hi
          · cases hi
      | deprecated m => cases hi
      | section_ s =>
          left; right
          simp only [sectionItems, List.mem_map, Option.mem_toList]
          exact ⟨s, (hsec s).mpr (.inr hm), by simpa [fnItem] using hi⟩
      | align ds => cases hi
      | custom w =>
          right; right
          exact ⟨_, hm, .inl ⟨w, rfl, by simpa [fnItem, eq_comm] using hi⟩⟩
      | customArgs w t ts =>
          right; right
          exact ⟨_, hm, .inr ⟨w, t, ts, rfl, by simpa [fnItem, eq_comm] using hi⟩⟩

/-- C182, structs: the generated C has well-formed lists with exactly the attributes that are written:
packing, alignment (a decimal number), visibility and every attribute passed on.  (A struct with
`@vector`: `vector_violated`.) -/
theorem struct_attributes (srcs : List Src) (hs : ∀ s ∈ srcs, s.Ok) (rest : List Tok) (hr : NoParen rest)
    (hat : ∀ r, rest ≠ .at_ :: r) (hu : ∀ d d', .align d ∈ srcs → .align d' ∈ srcs → d = d') :
    ∃ gs, structOutput (srcText srcs ++ rest) = .ok gs ∧
      Carries gs (fun i => ∃ s ∈ srcs, structItem s = some i) := by
  refine ⟨_, (fnOutput_eq srcs hs rest hr hat).2, ?_⟩
  have hv : (srcs.foldl apply none_).vector = 0 := vector_zero srcs none_
  have hal := fun n hn => align_iff srcs none_ hu n hn hs (.inl rfl)
  have hcu := custom_iff srcs none_
  have hon := on_iff srcs none_
  generalize srcs.foldl apply none_ = a at hv hal hcu hon
  have hon' : ∀ w, w ∈ a.on ↔ .plain w ∈ srcs := by
    intro w; rw [hon]; simp [none_]
  have hal' : ∀ n, n ≠ 0 → (a.align = n ↔ ∃ d, .align d ∈ srcs ∧ decVal d = n) := by
    intro n hn; rw [hal n hn]
    constructor
    · rintro (h | h)
      · exact absurd h.symm (by simpa [none_] using hn)
      · exact h
    · exact .inr
  -- the lists and their attributes
  let g1 : List (List Item) := if "packed" ∈ a.on ∧ a.align ≠ 0 then [[("packed", []), ("aligned", [toString a.align])]]
      else if "packed" ∈ a.on then [[("packed", [])]] else []
  let g2 : List (List Item) := if a.align ≠ 0 then [[("aligned", [toString a.align])]] else []
  let g3 : List (List Item) := if "export" ∈ a.on then [[("visibility", ["\"default\""])]] else []
  let g4 : List (List Item) := if a.custom.isEmpty then [] else [a.custom]
  refine ⟨g1 ++ g2 ++ g3 ++ g4, ?_, ?_⟩
  · have e1 : ∀ (c : Prop) [Decidable c] (x y : List (List Out)) (p q : List (List Item)),
        x.map readList = p.map some → y.map readList = q.map some →
        (if c then x else y).map readList = (if c then p else q).map some := by
      intro c _ x y p q h1 h2
      split <;> assumption
    unfold structGroups
    rw [if_neg (by omega)]
    simp only [List.map_append]
    congr 1
    · congr 1
      · congr 1
        · exact e1 _ _ _ _ _ rfl (e1 _ _ _ _ _ rfl rfl)
        · exact e1 _ _ _ _ _ rfl rfl
      · exact e1 _ _ _ _ _ rfl rfl
    · by_cases hc : a.custom = []
      · simp [g4, hc]
      · have hne : a.custom.isEmpty = false := by simpa using hc
        have := (pushes_sync a.custom (st := (true, [])) (l := []) ⟨rfl, rfl⟩).2
        simp only [List.nil_append] at this
        simp [g4, hne, this, readList_join a.custom hc]
  · intro i
    constructor
    · rintro ⟨is, hm, hi⟩
      have al : a.align ≠ 0 → i = ("aligned", [toString a.align]) → ∃ s ∈ srcs, structItem s = some i := by
        intro h0 e
        obtain ⟨d, hd, hv⟩ := (hal' _ h0).mp rfl
        exact ⟨_, hd, by rw [e, structItem, hv]⟩
      have pk : "packed" ∈ a.on → i = ("packed", []) → ∃ s ∈ srcs, structItem s = some i := by
        intro h0 e
        exact ⟨_, (hon' _).mp h0, by rw [e]; rfl⟩
      rcases List.mem_append.mp hm with hm | hm
      · rcases List.mem_append.mp hm with hm | hm
        · rcases List.mem_append.mp hm with hm | hm
          · simp only [g1] at hm
            split at hm
            · rename_i h
              simp only [List.mem_singleton] at hm
              subst hm
              simp only [List.mem_cons, List.not_mem_nil, or_false] at hi
              rcases hi with hi | hi
              · exact pk h.1 hi
              · exact al h.2 hi
            · split at hm
              · rename_i h
                simp only [List.mem_singleton] at hm
                subst hm
                simp only [List.mem_singleton] at hi
                exact pk h hi
              · simp at hm
          · simp only [g2] at hm
            split at hm
            · rename_i h
              simp only [List.mem_singleton] at hm
              subst hm
              simp only [List.mem_singleton] at hi
              exact al h hi
            · simp at hm
        · simp only [g3] at hm
          split at hm
          · rename_i h
            simp only [List.mem_singleton] at hm
            subst hm
            simp only [List.mem_singleton] at hi
            exact ⟨_, (hon' _).mp h, by rw [hi]; rfl⟩
          · simp at hm
      · simp only [g4] at hm
        split at hm
        · simp at hm
        · simp only [List.mem_singleton] at hm
          subst hm
          rcases (hcu i).mp hi with h' | ⟨x, hx, ⟨w, rfl, rfl⟩ | ⟨w, t, ts, rfl, rfl⟩⟩
          · simp [none_] at h'
          · exact ⟨_, hx, rfl⟩
          · exact ⟨_, hx, rfl⟩
    · have cu : i ∈ a.custom → ∃ is ∈ g1 ++ g2 ++ g3 ++ g4, i ∈ is := by
        intro h
        have hne : a.custom.isEmpty = false := by
          cases hc : a.custom with
          | nil => rw [hc] at h; cases h
          | cons _ _ => rfl
        exact ⟨a.custom, by simp [g4, hne], h⟩
      rintro ⟨s, hm, hi⟩
      cases s with
      | plain w =>
          simp only [structItem] at hi
          split at hi
          · rename_i hw
            subst hw
            cases hi
            have hp := (hon' _).mpr hm
            by_cases h0 : a.align = 0
            · exact ⟨[("packed", [])], by simp [g1, hp, h0], by simp⟩
            · exact ⟨[("packed", []), ("aligned", [toString a.align])], by simp [g1, hp, h0], by simp⟩
          · split at hi
            · rename_i hw
              subst hw
              cases hi
              have hp := (hon' _).mpr hm
              exact ⟨[("visibility", ["\"default\""])], by simp [g3, hp], by simp⟩
            · cases hi
      | deprecated m => cases hi
      | section_ s => cases hi
      | align ds =>
          cases hi
          have h0 := (hs _ hm).2
          have e := (hal' (decVal ds) h0).mpr ⟨ds, hm, rfl⟩
          refine ⟨[("aligned", [toString a.align])], ?_, by simp [e]⟩
          have h1 : a.align ≠ 0 := by omega
          simp [g2, h1]
      | custom w =>
          cases hi
          exact cu ((hcu _).mpr (.inr ⟨_, hm, .inl ⟨w, rfl, rfl⟩⟩))
      | customArgs w t ts =>
          cases hi
          exact cu ((hcu _).mpr (.inr ⟨_, hm, .inr ⟨w, t, ts, rfl, rfl⟩⟩))

/-! ## Where it does not hold -/

/-- C182 refuted: a function with a section and an attribute that is passed on, and none of the flags,
gets a list without a comma between the two, which no C compiler reads. -/
theorem section_custom_violated (s w : String) (hw : w ∉ special) (rest : List Tok) (hr : NoParen rest)
    (hat : ∀ r, rest ≠ .at_ :: r) :
    ∃ g, fnOutput (srcText [.section_ s, .custom w] ++ rest) = .ok [g] ∧
      g = [.item ("section", ["\"" ++ s ++ "\""]), .item (w, [])] ∧ readList g = none := by
  refine ⟨_, (fnOutput_eq [.section_ s, .custom w] (by
    intro x hx
    simp only [List.mem_cons, List.not_mem_nil, or_false] at hx
    rcases hx with rfl | rfl
    · trivial
    · exact hw) rest hr hat).1, ?_, rfl⟩
  rfl

theorem attrs_one {w : String} {r rest : List Tok} {a : Attrs} (h : attr none_ w r = .ok (a, rest))
    (hat : ∀ r, rest ≠ .at_ :: r) (n : Nat) : attrs (n + 2) none_ (.at_ :: .ident w :: r) = .ok (a, rest) := by
  rw [attrs]
  simp only [h, Res.ok_bind]
  unfold attrs
  split
  · exact absurd rfl (hat _)
  · exact absurd rfl (hat _)
  · rfl

/-- C182 refuted: an alignment that is written in hexadecimal, octal or binary with a prefix has no
effect: the struct has no attribute at all. -/
theorem align_prefix_violated (c : Char) (ds : List Char) (hc : c.isDigit = false) (rest : List Tok)
    (hat : ∀ r, rest ≠ .at_ :: r) :
    structOutput ([.at_, .ident "align", .lp, .int ('0' :: c :: ds), .rp] ++ rest) = .ok [] := by
  have e : atoi ('0' :: c :: ds) = 0 := by
    simp [atoi, List.takeWhile, hc, show Char.isDigit '0' = true from by decide]
  have h2 : attr none_ "align" (.lp :: .int ('0' :: c :: ds) :: .rp :: rest) = .ok (none_, rest) := by
    rw [attr, if_neg (by decide), if_neg (by decide), if_neg (by decide), if_neg (by decide), if_pos rfl]
    simp [alignAttr, close, e, none_]
  simp only [structOutput, List.cons_append, List.nil_append, List.length_cons, attrs_one h2 hat, Res.ok_bind]
  rfl

/-- C182 refuted: an alignment or a section that is given by a name is dropped without a message. -/
theorem named_value_violated (x : String) (rest : List Tok) (hat : ∀ r, rest ≠ .at_ :: r) :
    structOutput ([.at_, .ident "align", .lp, .ident x, .rp] ++ rest) = .ok [] ∧
    fnOutput ([.at_, .ident "section", .lp, .ident x, .rp] ++ rest) = .ok [] := by
  have h2 : attr none_ "align" (.lp :: .ident x :: .rp :: rest) = .ok (none_, rest) := by
    rw [attr, if_neg (by decide), if_neg (by decide), if_neg (by decide), if_neg (by decide), if_pos rfl]; rfl
  have h3 : attr none_ "section" (.lp :: .ident x :: .rp :: rest) = .ok (none_, rest) := by
    rw [attr, if_neg (by decide), if_neg (by decide), if_pos rfl]; rfl
  constructor
  · simp only [structOutput, List.cons_append, List.nil_append, List.length_cons, attrs_one h2 hat, Res.ok_bind]
    rfl
  · simp only [fnOutput, List.cons_append, List.nil_append, List.length_cons, attrs_one h3 hat, Res.ok_bind]
    rfl

/-- C182 refuted: a struct with `@vector` loses all its other attributes. -/
theorem vector_violated (ds : List Char) (hd : ∀ c ∈ ds, c.isDigit = true) (hv : decVal ds ≠ 0) (srcs : List Src)
    (hs : ∀ s ∈ srcs, s.Ok) (rest : List Tok) (hr : NoParen rest) (hat : ∀ r, rest ≠ .at_ :: r) :
    structOutput ([.at_, .ident "vector", .lp, .int ds, .rp] ++ srcText srcs ++ rest) = .ok [] := by
  have h2 : attr none_ "vector" (.lp :: .int ds :: .rp :: (srcText srcs ++ rest))
      = .ok ({ none_ with vector := decVal ds }, srcText srcs ++ rest) := by
    rw [attr, if_neg (by decide), if_neg (by decide), if_neg (by decide), if_pos rfl]
    simp [vectorAttr, close, atoi, takeWhile_all hd, decVal]
  have h3 : ∀ n, srcs.length < n → attrs n { none_ with vector := decVal ds } (srcText srcs ++ rest) = _ :=
    fun n hn => attrs_src srcs _ n rest hs hr hat hn
  have hl : srcs.length < ([Tok.at_, .ident "vector", .lp, .int ds, .rp] ++ srcText srcs ++ rest).length := by
    have := srcText_len srcs
    simp only [List.length_append, List.length_cons, List.length_nil]; omega
  rw [structOutput]
  generalize ([Tok.at_, .ident "vector", .lp, .int ds, .rp] ++ srcText srcs ++ rest).length = n at hl
  show (attrs (n + 1) none_ (.at_ :: .ident "vector" :: .lp :: .int ds :: .rp :: (srcText srcs ++ rest)) >>= _) = _
  rw [attrs]
  simp only [h2, Res.ok_bind, h3 n hl]
  rw [structGroups, if_pos (by rw [vector_zero]; exact Nat.pos_of_ne_zero hv)]

/-- C182 refuted: custom attributes cannot have an empty list of arguments. -/
theorem empty_args_violated (w : String) (hw : w ∉ special) (x : String) (rest : List Tok) :
    fnOutput ([.at_, .ident w, .lp, .rp] ++ .ident x :: rest) = .panic := by
  obtain ⟨h1, h2, h3, h4, h5⟩ := custom_facts hw
  have : attr none_ w (.lp :: .rp :: .ident x :: rest) = .panic := by
    rw [attr, if_neg h1, if_neg h2, if_neg h3, if_neg h4, if_neg h5]; rfl
  rw [fnOutput]
  show (attrs (_ + 1) none_ (.at_ :: .ident w :: .lp :: .rp :: .ident x :: rest) >>= _) = _
  rw [attrs]
  simp only [this]
  rfl

/-- `@weak @section("s") @flatten fn` and `@packed @align(16) @custom(1, "x") struct` -/
example : fnOutput (srcText [.plain "weak", .section_ "s", .custom "flatten"] ++ [.ident "fn"])
      = .ok [[.item ("weak", []), .sep, .item ("section", ["\"s\""]), .sep, .item ("flatten", [])]] ∧
    structOutput (srcText [.plain "packed", .align ['1', '6'], .customArgs "custom" (.int ['1']) [.str "x"]] ++ [.ident "struct"])
      = .ok [[.item ("packed", []), .sep, .item ("aligned", ["16"])], [.item ("aligned", ["16"])],
          [.item ("custom", ["1", "\"x\""])]] := by
  constructor <;> decide +kernel

end Verif.Attrs
