import Verif.RegexPlugin.Model
import Verif.BuildFlags.Lemmas

/-!
# The regex plugin: properties
-/

namespace Verif.RegexPlugin

open Verif.Str (Byte)
open Verif.BuildFlags (cut isSpace cut_append)
open Spec

theorem byteRange {P : Byte → Prop} [DecidablePred P] (h : ∀ n : Fin 256, P (UInt8.ofNat n)) (c : Byte) : P c := by
  have := h ⟨c.toNat, c.toNat_lt⟩
  simpa using this

/-- characters without meaning -/
def plainB (c : Byte) : Bool :=
  33 ≤ c && c ≤ 126 && !([36, 39, 40, 41, 42, 43, 45, 46, 63, 91, 92, 93, 94, 123, 124, 125] : List Byte).contains c

theorem plain_iff (c : Byte) : Plain c ↔ plainB c = true := by
  simp [Plain, plainB, and_assoc]

theorem plain_facts {c : Byte} (h : Plain c) :
    c ≠ 94 ∧ c ≠ 36 ∧ c ≠ 91 ∧ c ≠ 46 ∧ c ≠ 45 ∧ c ≠ 93 ∧ c ≠ 43 ∧ c ≠ 42 ∧ charOk c = true ∧ isSpace c = false ∧ sc c = c.toNat := by
  rw [plain_iff] at h
  revert h
  revert c
  have : ∀ c : Byte, plainB c = true → c ≠ 94 ∧ c ≠ 36 ∧ c ≠ 91 ∧ c ≠ 46 ∧ c ≠ 45 ∧ c ≠ 93 ∧ c ≠ 43 ∧ c ≠ 42 ∧
      charOk c = true ∧ isSpace c = false ∧ sc c = c.toNat :=
    byteRange (by decide +kernel)
  exact fun {c} => this c

/-- operation of an item -/
def op (i : Item) : Op :=
  match i.base with
  | .lit b => .lit b
  | .dot => .dot
  | .cls neg rs => .cls ⟨neg, rs⟩ i.quant

/-! ## Reading a pattern -/

theorem tests_ranges : ∀ (rs : List (Byte × Byte)), (∀ r ∈ rs, Plain r.1 ∧ Plain r.2) →
    tests (rs.flatMap rangeText) = rs
  | [], _ => rfl
  | (a, b) :: rs, h => by
      have ih := tests_ranges rs (fun r hr => h r (by simp [hr]))
      have ha := plain_facts (h (a, b) (by simp)).1
      have hb := plain_facts (h (a, b) (by simp)).2
      simp only at ha hb
      rw [List.flatMap_cons, rangeText]
      simp only
      split
      · rename_i e
        subst e
        -- the next character is not `-`
        have hnext : ∀ (x y : Byte) (r : List Byte), rs.flatMap rangeText = x :: y :: r → x ≠ 45 := by
          intro x y r hx
          cases rs with
          | nil => simp at hx
          | cons q rs =>
              have hq := plain_facts (h q (by simp)).1
              rw [List.flatMap_cons, rangeText] at hx
              split at hx <;> (simp at hx; rw [← hx.1]; exact hq.2.2.2.2.1)
        rw [List.singleton_append]
        unfold tests
        split
        · rename_i heq; simp at heq
        · rename_i a' b' r' heq
          simp only [List.cons.injEq] at heq
          exact absurd rfl (hnext 45 b' r' heq.2)
        · rename_i a' r' _ heq
          simp only [List.cons.injEq] at heq
          obtain ⟨rfl, rfl⟩ := heq
          rw [ih]
      · simp only [List.cons_append, List.nil_append]
        rw [tests, ih]

theorem ranges_no {rs : List (Byte × Byte)} (h : ∀ r ∈ rs, Plain r.1 ∧ Plain r.2) :
    (93 : Byte) ∉ rs.flatMap rangeText ∧ (∀ c ∈ rs.flatMap rangeText, isSpace c = false) ∧
      (rs ≠ [] → ∃ c r, rs.flatMap rangeText = c :: r ∧ c ≠ 94) := by
  have key : ∀ c ∈ rs.flatMap rangeText, c ≠ 93 ∧ isSpace c = false := by
    intro c hc
    obtain ⟨r, hr, hc⟩ := List.mem_flatMap.1 hc
    obtain ⟨h1, h2⟩ := h r hr
    have h1 := plain_facts h1
    have h2 := plain_facts h2
    unfold rangeText at hc
    split at hc
    · simp only [List.mem_singleton] at hc; subst hc; exact ⟨h1.2.2.2.2.2.1, h1.2.2.2.2.2.2.2.2.2.1⟩
    · simp only [List.mem_cons, List.not_mem_nil, or_false] at hc
      rcases hc with rfl | rfl | rfl
      · exact ⟨h1.2.2.2.2.2.1, h1.2.2.2.2.2.2.2.2.2.1⟩
      · decide
      · exact ⟨h2.2.2.2.2.2.1, h2.2.2.2.2.2.2.2.2.2.1⟩
  refine ⟨fun hc => (key 93 hc).1 rfl, fun c hc => (key c hc).2, ?_⟩
  intro hne
  cases rs with
  | nil => exact absurd rfl hne
  | cons q rs =>
      have hq := plain_facts (h q (by simp)).1
      rw [List.flatMap_cons, rangeText]
      split
      · exact ⟨_, _, rfl, hq.1⟩
      · exact ⟨_, _, rfl, hq.1⟩

theorem parseCls_text {neg : Bool} {rs : List (Byte × Byte)} (hne : rs ≠ [])
    (h : ∀ r ∈ rs, Plain r.1 ∧ Plain r.2) :
    parseCls ((if neg then [94] else []) ++ rs.flatMap rangeText) = ⟨neg, rs⟩ := by
  obtain ⟨c, r, hc, hc94⟩ := (ranges_no h).2.2 hne
  cases neg with
  | true => simp [parseCls, tests_ranges rs h]
  | false =>
      have ht := tests_ranges rs h
      simp only [Bool.false_eq_true, if_false, List.nil_append]
      rw [hc] at ht ⊢
      unfold parseCls
      split
      · rename_i heq; simp only [List.cons.injEq] at heq; exact absurd heq.1 hc94
      · rw [ht]

/-- the text behind an item does not begin with a quantifier -/
def NoQuant (r : List Byte) : Prop := r.head? ≠ some 43 ∧ r.head? ≠ some 42

theorem emitF_item (f : Nat) {i : Item} (h : i.Ok) (r : List Byte) (hr : NoQuant r) :
    emitF (f + 1) (i.text ++ r) = op i :: emitF f r := by
  obtain ⟨b, q⟩ := i
  cases b with
  | lit b =>
      obtain ⟨hp, hq⟩ : Plain b ∧ q = .one := h
      subst hq
      have := plain_facts hp
      simp [Item.text, Base.text, quantText, emitF, op, this.1, this.2.1, this.2.2.1, this.2.2.2.1]
  | dot =>
      have hq : q = .one := h
      subst hq
      simp [Item.text, Base.text, quantText, emitF, op]
  | cls neg rs =>
      obtain ⟨hne, hrs⟩ : rs ≠ [] ∧ ∀ r ∈ rs, Plain r.1 ∧ Plain r.2 := h
      have h93 : (93 : Byte) ∉ (if neg then [94] else []) ++ rs.flatMap rangeText := by
        intro hc
        rcases List.mem_append.1 hc with hc | hc
        · cases neg <;> simp at hc
        · exact (ranges_no hrs).1 hc
      have ht : Item.text ⟨.cls neg rs, q⟩ ++ r =
          91 :: (((if neg then [94] else []) ++ rs.flatMap rangeText) ++ 93 :: (quantText q ++ r)) := by
        simp [Item.text, Base.text]
      rw [ht, emitF]
      simp only [show (91 : Byte) ≠ 94 by decide, show (91 : Byte) ≠ 36 by decide, if_false, if_true,
        cut_append _ _ _ h93, parseCls_text hne hrs, op]
      cases q with
      | plus => simp [quantText]
      | star => simp [quantText]
      | one =>
          simp only [quantText, List.nil_append]
          split
          · simp [NoQuant] at hr
          · simp [NoQuant] at hr
          · rfl

theorem item_head {i : Item} (h : i.Ok) : ∃ c r, i.text = c :: r ∧ c ≠ 43 ∧ c ≠ 42 ∧ c ≠ 94 := by
  obtain ⟨b, q⟩ := i
  cases b with
  | lit b =>
      have := plain_facts (show Plain b from h.1)
      exact ⟨b, _, rfl, this.2.2.2.2.2.2.1, this.2.2.2.2.2.2.2.1, this.1⟩
  | dot => exact ⟨46, _, rfl, by decide, by decide, by decide⟩
  | cls => exact ⟨91, _, rfl, by decide, by decide, by decide⟩

theorem emitF_items : ∀ (is : List Item) (f : Nat) (e : Bool), (∀ i ∈ is, i.Ok) → is.length + e.toNat < f →
    emitF f (is.flatMap Item.text ++ (if e then [36] else [])) = is.map op ++ (if e then [.eof] else [])
  | [], f, e, _, hf => by
      cases e with
      | false =>
          obtain ⟨g, rfl⟩ : ∃ g, f = g + 1 := ⟨f - 1, by simp at hf; omega⟩
          simp [emitF]
      | true =>
          obtain ⟨g, rfl⟩ : ∃ g, f = g + 2 := ⟨f - 2, by simp at hf; omega⟩
          simp [emitF]
  | i :: is, f, e, h, hf => by
      simp only [List.length_cons] at hf
      obtain ⟨g, rfl⟩ : ∃ g, f = g + 1 := ⟨f - 1, by omega⟩
      have hno : NoQuant (is.flatMap Item.text ++ (if e then [36] else [])) := by
        cases is with
        | nil => cases e <;> simp [NoQuant]
        | cons j js =>
            obtain ⟨c, r, hc, h1, h2, _⟩ := item_head (h j (by simp))
            simp [NoQuant, hc, h1, h2]
      rw [List.flatMap_cons, List.append_assoc, emitF_item g (h i (by simp)) _ hno,
        emitF_items is g e (fun j hj => h j (by simp [hj])) (by omega)]
      simp

theorem item_nosp {i : Item} (h : i.Ok) : ∀ c ∈ i.text, isSpace c = false := by
  obtain ⟨b, q⟩ := i
  have hq : ∀ c ∈ quantText q, isSpace c = false := by cases q <;> decide
  intro c hc
  rcases List.mem_append.1 hc with hc | hc
  · cases b with
    | lit b =>
        simp only [Base.text, List.mem_singleton] at hc
        subst hc
        exact (plain_facts (show Plain c from h.1)).2.2.2.2.2.2.2.2.2.1
    | dot => simp only [Base.text, List.mem_singleton] at hc; subst hc; decide
    | cls neg rs =>
        simp only [Base.text, List.mem_cons, List.mem_append, List.not_mem_nil, or_false] at hc
        rcases hc with rfl | hc | hc | rfl
        · decide
        · cases neg <;> simp at hc; subst hc; decide
        · exact (ranges_no h.2).2.1 c hc
        · decide
  · exact hq c hc

/-- the operations for a pattern -/
theorem emit_pat {p : Pat} (h : ∀ i ∈ p.items, i.Ok) :
    emit p.text = p.items.map op ++ (if p.atEnd then [.eof] else []) := by
  have hns : p.text.filter (fun c => !isSpace c) = p.text := by
    rw [List.filter_eq_self]
    intro c hc
    simp only [Pat.text, List.mem_append, List.mem_flatMap] at hc
    rcases hc with hc | ⟨i, hi, hc⟩ | hc
    · cases hs : p.atStart <;> simp [hs] at hc; subst hc; decide
    · rw [item_nosp (h i hi) c hc]; rfl
    · cases hs : p.atEnd <;> simp [hs] at hc; subst hc; decide
  have hlen : ∀ is : List Item, (∀ i ∈ is, i.Ok) → is.length ≤ (is.flatMap Item.text).length := by
    intro is
    induction is with
    | nil => simp
    | cons i is ih =>
        intro hi
        obtain ⟨c, r, hc, _⟩ := item_head (hi i (by simp))
        have := ih (fun j hj => hi j (by simp [hj]))
        rw [List.flatMap_cons, List.length_append, hc]
        simp only [List.length_cons]; omega
  have hl := hlen p.items h
  unfold emit
  simp only [hns]
  have he : (if p.atEnd then [36] else ([] : List Byte)).length = p.atEnd.toNat := by cases p.atEnd <;> rfl
  cases hs : p.atStart with
  | true =>
      simp only [Pat.text, hs, if_true, List.singleton_append, List.length_cons, List.length_append, he]
      rw [emitF]
      simp only [if_true]
      exact emitF_items p.items _ p.atEnd h (by omega)
  | false =>
      simp only [Pat.text, hs, Bool.false_eq_true, if_false, List.nil_append, List.length_append, he]
      exact emitF_items p.items _ p.atEnd h (by omega)

theorem ops_ok {p : Pat} (h : ∀ i ∈ p.items, i.Ok) : (emit p.text).all Op.ok = true := by
  rw [emit_pat h, List.all_append, Bool.and_eq_true]
  constructor
  · rw [List.all_eq_true]
    intro o ho
    obtain ⟨i, hi, rfl⟩ := List.mem_map.1 ho
    have hk := h i hi
    obtain ⟨b, q⟩ := i
    cases b with
    | lit b => exact (plain_facts (show Plain b from hk.1)).2.2.2.2.2.2.2.2.1
    | dot => rfl
    | cls neg rs =>
        simp only [op, Op.ok, List.all_eq_true, Bool.and_eq_true]
        intro r hr
        exact ⟨(plain_facts (hk.2 r hr).1).2.2.2.2.2.2.2.2.1, (plain_facts (hk.2 r hr).2).2.2.2.2.2.2.2.2.1⟩
  · cases p.atEnd <;> rfl

theorem matcher_pat {p : Pat} (h : ∀ i ∈ p.items, i.Ok) (t : List Byte) :
    matcher p.text t = some (run (p.items.map op ++ (if p.atEnd then [.eof] else [])) t) := by
  rw [matcher, if_pos (ops_ok h), emit_pat h]

theorem takeWhile_mem {P : Byte → Bool} {c : Byte} : ∀ {t : List Byte}, c ∈ t.takeWhile P → P c = true
  | [], h => by simp at h
  | d :: t, h => by
      rw [List.takeWhile_cons] at h
      split at h
      · rcases List.mem_cons.1 h with rfl | h
        · assumption
        · exact takeWhile_mem h
      · simp at h

theorem dropWhile_head {P : Byte → Bool} {c : Byte} {r : List Byte} : ∀ {t : List Byte},
    t.dropWhile P = c :: r → P c = false
  | [], h => by simp at h
  | d :: t, h => by
      rw [List.dropWhile_cons] at h
      split at h
      · exact dropWhile_head h
      · rename_i hd
        simp only [List.cons.injEq] at h
        rw [← h.1]; simpa using hd

/-! ## Classes -/

theorem sc_cmp {a b : Byte} (ha : Plain a) (hb : Plain b) (c : Byte) :
    (sc a ≤ sc c ∧ sc c ≤ sc b) ↔ a.toNat ≤ c.toNat ∧ c.toNat ≤ b.toNat := by
  have h1 := (plain_facts ha).2.2.2.2.2.2.2.2.2.2
  have h2 := (plain_facts hb).2.2.2.2.2.2.2.2.2.2
  have hb' : b.toNat ≤ 126 := by have := hb.2.1; simpa [UInt8.le_iff_toNat_le] using this
  rw [h1, h2]
  have hc : (c.toNat < 128 ∧ sc c = c.toNat) ∨ (128 ≤ c.toNat ∧ sc c < 0) := by
    revert c
    exact byteRange (by decide +kernel)
  omega

theorem holds_iff {neg : Bool} {rs : List (Byte × Byte)} (h : ∀ r ∈ rs, Plain r.1 ∧ Plain r.2) (c : Byte) :
    Cls.holds ⟨neg, rs⟩ c = true ↔ Base.Has (.cls neg rs) c := by
  have key : (rs.any fun t => decide (sc t.1 ≤ sc c) && decide (sc c ≤ sc t.2)) = true ↔
      ∃ r ∈ rs, r.1.toNat ≤ c.toNat ∧ c.toNat ≤ r.2.toNat := by
    rw [List.any_eq_true]
    constructor
    · rintro ⟨r, hr, hc⟩
      simp only [Bool.and_eq_true, decide_eq_true_eq] at hc
      exact ⟨r, hr, (sc_cmp (h r hr).1 (h r hr).2 c).1 hc⟩
    · rintro ⟨r, hr, hc⟩
      refine ⟨r, hr, ?_⟩
      simp only [Bool.and_eq_true, decide_eq_true_eq]
      exact (sc_cmp (h r hr).1 (h r hr).2 c).2 hc
  cases neg with
  | false => simp only [Cls.holds, Base.Has, bne_iff_ne, ne_eq, Bool.not_eq_false]; exact key
  | true =>
      simp only [Cls.holds, Base.Has, bne_iff_ne, ne_eq]
      rw [← key]

/-! ## Soundness -/

theorem star_words {b : Base} {is : List Item} : ∀ {u w : List Byte}, (∀ c ∈ u, Base.Has b c) → Lang is w →
    Lang (⟨b, .star⟩ :: is) (u ++ w)
  | [], w, _, h => .stop h
  | c :: u, w, hu, h => .more (hu c (by simp)) (star_words (fun d hd => hu d (by simp [hd])) h)

theorem run_eof {e : Bool} {t : List Byte} (h : run (if e then [.eof] else []) t = true) : e = true → t = [] := by
  rintro rfl
  simpa [run] using h

theorem run_sound : ∀ (is : List Item) (e : Bool) (t : List Byte), (∀ i ∈ is, i.Ok) →
    run (is.map op ++ (if e then [.eof] else [])) t = true →
    ∃ w z, t = w ++ z ∧ Lang is w ∧ (e = true → z = [])
  | [], e, t, _, h => ⟨[], t, rfl, .nil, run_eof h⟩
  | ⟨b, q⟩ :: is, e, t, hok, h => by
      have hi := hok ⟨b, q⟩ (by simp)
      have hrest : ∀ t, run (is.map op ++ (if e then [.eof] else [])) t = true →
          ∃ w z, t = w ++ z ∧ Lang is w ∧ (e = true → z = []) :=
        fun t => run_sound is e t (fun j hj => hok j (by simp [hj]))
      simp only [List.map_cons, List.cons_append] at h
      cases b with
      | lit b =>
          obtain ⟨_, rfl⟩ : Plain b ∧ q = .one := hi
          cases t with
          | nil => simp [op, run] at h
          | cons c t =>
              simp only [op, run, Bool.and_eq_true, beq_iff_eq] at h
              obtain ⟨w, z, rfl, hl, hz⟩ := hrest t h.2
              exact ⟨c :: w, z, rfl, .one h.1 hl, hz⟩
      | dot =>
          obtain rfl : q = .one := hi
          cases t with
          | nil => simp [op, run] at h
          | cons c t =>
              simp only [op, run] at h
              obtain ⟨w, z, rfl, hl, hz⟩ := hrest t h
              exact ⟨c :: w, z, rfl, .one trivial hl, hz⟩
      | cls neg rs =>
          have hh := holds_iff (neg := neg) hi.2
          have htw : ∀ c ∈ t.takeWhile (Cls.holds ⟨neg, rs⟩), Base.Has (.cls neg rs) c :=
            fun c hc => (hh c).1 (takeWhile_mem hc)
          cases q with
          | one =>
              cases t with
              | nil => simp [op, run] at h
              | cons c t =>
                  simp only [op, run, Bool.and_eq_true] at h
                  obtain ⟨w, z, rfl, hl, hz⟩ := hrest t h.2
                  exact ⟨c :: w, z, rfl, .one ((hh c).1 h.1) hl, hz⟩
          | star =>
              simp only [op, run] at h
              obtain ⟨w, z, e1, hl, hz⟩ := hrest _ h
              refine ⟨t.takeWhile (Cls.holds ⟨neg, rs⟩) ++ w, z, ?_, star_words htw hl, hz⟩
              rw [List.append_assoc, ← e1, List.takeWhile_append_dropWhile]
          | plus =>
              cases t with
              | nil => simp [op, run] at h
              | cons c t =>
                  simp only [op, run, Bool.and_eq_true] at h
                  obtain ⟨w, z, e1, hl, hz⟩ := hrest _ h.2
                  rw [List.dropWhile_cons, if_pos h.1] at e1
                  simp only [List.takeWhile_cons, h.1, if_true, List.mem_cons] at htw
                  refine ⟨c :: (t.takeWhile (Cls.holds ⟨neg, rs⟩) ++ w), z, ?_,
                    .plus ((hh c).1 h.1) (star_words (fun d hd => htw d (.inr hd)) hl), hz⟩
                  rw [List.cons_append, List.append_assoc, ← e1, List.takeWhile_append_dropWhile]

/-- **C42**, in part (soundness): a pattern of plain characters, dots and classes, the classes with or
without `+` or `*`, gives C code, and whatever the code accepts, the pattern matches.  Missing: escapes,
groups, alternatives, quantifiers behind anything but a class. -/
theorem sound_partial (p : Pat) (h : ∀ i ∈ p.items, i.Ok) (t : List Byte) :
    ∃ r, matcher p.text t = some r ∧ (r = true → p.Matches t) := by
  refine ⟨run (emit p.text) t, by simp only [matcher, ops_ok h, if_true], ?_⟩
  intro hr
  rw [emit_pat h] at hr
  obtain ⟨w, z, e, hl, hz⟩ := run_sound p.items p.atEnd t h hr
  exact ⟨[], w, z, by simpa using e, hl, fun _ => rfl, hz⟩

/-! ## Completeness -/

/-- all items may be left out -/
def AllStar (is : List Item) : Prop := ∀ i ∈ is, i.quant = .star

theorem lang_nil {is : List Item} {w : List Byte} (h : Lang is w) : w = [] → AllStar is := by
  induction h with
  | nil => intro _; simp [AllStar]
  | one | more | plus => intro h; simp at h
  | stop _ ih =>
      intro hw i hi
      rcases List.mem_cons.1 hi with rfl | hi
      · rfl
      · exact ih hw i hi

theorem run_allStar : ∀ (is : List Item) (t : List Byte), (∀ i ∈ is, i.Ok) → AllStar is →
    run (is.map op) t = true
  | [], t, _, _ => rfl
  | ⟨b, q⟩ :: is, t, hok, hs => by
      have hi := hok ⟨b, q⟩ (by simp)
      obtain rfl : q = .star := hs ⟨b, q⟩ (by simp)
      cases b with
      | lit b => exact absurd hi.2 (by simp)
      | dot => exact absurd (show Quant.star = .one from hi) (by simp)
      | cls neg rs =>
          simp only [List.map_cons, op, run]
          exact run_allStar is _ (fun j hj => hok j (by simp [hj])) (fun j hj => hs j (by simp [hj]))

/-- text of a repetition: characters, then the rest -/
theorem star_split {is : List Item} {w : List Byte} {b : Base} (h : Lang (⟨b, .star⟩ :: is) w) :
    ∃ u v, w = u ++ v ∧ (∀ c ∈ u, Base.Has b c) ∧ Lang is v := by
  generalize hj : (⟨b, .star⟩ :: is : List Item) = js at h
  induction h with
  | nil => simp at hj
  | one => simp at hj
  | stop h =>
      simp only [List.cons.injEq, Item.mk.injEq, and_true] at hj
      obtain ⟨rfl, rfl⟩ := hj
      exact ⟨[], _, rfl, by simp, h⟩
  | more hc _ ih =>
      have hj' := hj
      simp only [List.cons.injEq, Item.mk.injEq, and_true] at hj
      obtain ⟨rfl, rfl⟩ := hj
      obtain ⟨u, v, rfl, hu, hv⟩ := ih hj'
      refine ⟨_ :: u, v, rfl, ?_, hv⟩
      intro d hd
      rcases List.mem_cons.1 hd with rfl | hd
      · exact hc
      · exact hu d hd
  | plus => simp at hj

theorem dropWhile_append_all {P : Byte → Bool} {u v : List Byte} (h : ∀ c ∈ u, P c = true) :
    (u ++ v).dropWhile P = v.dropWhile P := by
  induction u with
  | nil => rfl
  | cons c u ih =>
      rw [List.cons_append, List.dropWhile_cons, if_pos (h c (by simp)), ih (fun d hd => h d (by simp [hd]))]

theorem run_complete : ∀ (is : List Item) (e : Bool) (w z : List Byte), (∀ i ∈ is, i.Ok) → Det is →
    Lang is w → (e = true → z = []) → run (is.map op ++ (if e then [.eof] else [])) (w ++ z) = true
  | [], e, w, z, _, _, h, hz => by
      cases h
      cases e with
      | false => rfl
      | true => simp [hz rfl, run]
  | ⟨b, q⟩ :: is, e, w, z, hok, hdet, h, hz => by
      have hi := hok ⟨b, q⟩ (by simp)
      have hok' : ∀ i ∈ is, i.Ok := fun j hj => hok j (by simp [hj])
      obtain ⟨hd, hdet'⟩ := hdet
      have hrest : ∀ v, Lang is v → run (is.map op ++ (if e then [.eof] else [])) (v ++ z) = true :=
        fun v hv => run_complete is e v z hok' hdet' hv hz
      simp only [List.map_cons, List.cons_append]
      -- greedy repetition
      have greedy : ∀ (neg : Bool) (rs : List (Byte × Byte)) (u v : List Byte), b = .cls neg rs → q ≠ .one →
          (∀ c ∈ u, Base.Has b c) → Lang is v →
          run (is.map op ++ (if e then [.eof] else [])) ((u ++ (v ++ z)).dropWhile (Cls.holds ⟨neg, rs⟩)) = true := by
        rintro neg rs u v rfl hq hu hv
        have hh := holds_iff (neg := neg) hi.2
        rw [dropWhile_append_all (fun c hc => (hh c).2 (hu c hc))]
        cases hvz : v ++ z with
        | nil => simp only [List.dropWhile_nil]; rw [← hvz]; exact hrest v hv
        | cons c r =>
            by_cases hc : Cls.holds ⟨neg, rs⟩ c = true
            · cases v with
              | nil =>
                  have hall := lang_nil hv rfl
                  cases e with
                  | false => simpa using run_allStar is _ hok' hall
                  | true => simp [hz rfl] at hvz
              | cons d v =>
                  simp only [List.cons_append, List.cons.injEq] at hvz
                  obtain ⟨rfl, _⟩ := hvz
                  exact absurd ⟨v, hv⟩ (hd hq d ((hh d).1 hc))
            · rw [List.dropWhile_cons, if_neg hc, ← hvz]
              exact hrest v hv
      cases b with
      | lit b =>
          obtain ⟨_, rfl⟩ : Plain b ∧ q = .one := hi
          cases h with
          | one hc hw =>
              obtain rfl := hc
              simp [op, run, hrest _ hw]
      | dot =>
          obtain rfl : q = .one := hi
          cases h with
          | one hc hw => simp [op, run, hrest _ hw]
      | cls neg rs =>
          have hh := holds_iff (neg := neg) hi.2
          cases q with
          | one =>
              cases h with
              | one hc hw => simp [op, run, (hh _).2 hc, hrest _ hw]
          | star =>
              obtain ⟨u, v, rfl, hu, hv⟩ := star_split h
              simp only [op, run]
              rw [List.append_assoc]
              exact greedy neg rs u v rfl (by simp) hu hv
          | plus =>
              cases h with
              | @plus _ _ c w' hc hw =>
                  obtain ⟨u, v, rfl, hu, hv⟩ := star_split hw
                  simp only [op, run, List.cons_append, (hh c).2 hc, Bool.true_and]
                  have := greedy neg rs (c :: u) v rfl (by simp) (by
                    intro d hd
                    rcases List.mem_cons.1 hd with rfl | hd
                    · exact hc
                    · exact hu d hd) hv
                  simpa using this

/-- **C42**, in part (completeness): a pattern of the same kind that begins with `^`, in which no text of
what follows a repetition begins with a character of the repetition, accepts every text it matches.
Missing: all other patterns; see the violations below. -/
theorem complete_partial (p : Pat) (h : ∀ i ∈ p.items, i.Ok) (hs : p.atStart = true) (hdet : Det p.items)
    (t : List Byte) (hm : p.Matches t) : matcher p.text t = some true := by
  obtain ⟨a, w, z, rfl, hl, ha, hz⟩ := hm
  obtain rfl := ha hs
  rw [matcher_pat h, List.nil_append, run_complete p.items p.atEnd w z h hdet hl hz]

/-- the README's `^[a-z]+$` is such a pattern -/
example : let p : Pat := ⟨true, [⟨.cls false [(97, 122)], .plus⟩], true⟩
    p.text = [94, 91, 97, 45, 122, 93, 43, 36] ∧ (∀ i ∈ p.items, i.Ok) ∧ Det p.items := by
  refine ⟨by decide, ?_, ?_⟩
  · intro i hi
    simp only [List.mem_singleton] at hi
    subst hi
    exact ⟨by simp, by simp [Plain]⟩
  · refine ⟨?_, trivial⟩
    intro _ c _ hf
    obtain ⟨w, hw⟩ := hf
    cases hw

/-! ## Violations -/

/-- **C42** is violated: without `^` a pattern is still tried at the first character only. -/
theorem unanchored_violated (a b : Byte) (hb : Plain b) (hab : a ≠ b) :
    let p : Pat := ⟨false, [⟨.lit b, .one⟩], false⟩
    p.Matches [a, b] ∧ matcher p.text [a, b] = some false := by
  have hok : ∀ i ∈ [(⟨.lit b, .one⟩ : Item)], i.Ok := by
    intro i hi; simp only [List.mem_singleton] at hi; subst hi; exact ⟨hb, rfl⟩
  refine ⟨⟨[a], [b], [], rfl, .one rfl .nil, by simp, by simp⟩, ?_⟩
  rw [matcher_pat (p := ⟨false, [⟨.lit b, .one⟩], false⟩) hok]
  simp [op, run, hab]

/-- **C42** is violated: a repetition takes all it can and never gives back: `^[a-z]*x` with an `x` of the
class accepts nothing at all. -/
theorem greedy_violated (lo hi x : Byte) (h1 : Plain lo) (h2 : Plain hi) (hx : Plain x)
    (hin : lo.toNat ≤ x.toNat ∧ x.toNat ≤ hi.toNat) :
    let p : Pat := ⟨true, [⟨.cls false [(lo, hi)], .star⟩, ⟨.lit x, .one⟩], true⟩
    p.Matches [x] ∧ ∀ t, matcher p.text t = some false := by
  have hok : ∀ i ∈ [(⟨.cls false [(lo, hi)], .star⟩ : Item), ⟨.lit x, .one⟩], i.Ok := by
    intro i hi
    simp only [List.mem_cons, List.not_mem_nil, or_false] at hi
    rcases hi with rfl | rfl
    · exact ⟨by simp, by simpa using ⟨h1, h2⟩⟩
    · exact ⟨hx, rfl⟩
  refine ⟨⟨[], [x], [], rfl, .stop (.one rfl .nil), by simp, by simp⟩, ?_⟩
  intro t
  rw [matcher_pat (p := ⟨true, _, true⟩) hok]
  simp only [List.map_cons, List.map_nil, op, List.cons_append, List.nil_append, run, if_true]
  cases hd : t.dropWhile (Cls.holds ⟨false, [(lo, hi)]⟩) with
  | nil => rfl
  | cons c r =>
      have hc : Cls.holds ⟨false, [(lo, hi)]⟩ c = false := dropWhile_head hd
      have hne : c ≠ x := by
        rintro rfl
        have := (holds_iff (neg := false) (rs := [(lo, hi)]) (by simpa using ⟨h1, h2⟩) c).2
          ⟨(lo, hi), by simp, hin⟩
        rw [hc] at this
        simp at this
      simp [run, hne]

/-- **C42** is violated: a quantifier behind a character is taken for a character: `^a+$` matches `aa`, but
only the text `a+` is accepted. -/
theorem quantified_char_violated (a : Byte) (ha : Plain a) (t : List Byte) :
    (⟨true, [⟨.lit a, .plus⟩], true⟩ : Pat).Matches [a, a] ∧
      matcher (⟨true, [⟨.lit a, .plus⟩], true⟩ : Pat).text t = some (t == [a, 43]) := by
  refine ⟨⟨[], [a, a], [], rfl, .plus rfl (.more rfl (.stop .nil)), by simp, by simp⟩, ?_⟩
  obtain ⟨f1, f2, f3, f4, f5, f6, f7, f8, f9, f10, f11⟩ := plain_facts ha
  have he : emit (⟨true, [⟨.lit a, .plus⟩], true⟩ : Pat).text = [.lit a, .lit 43, .eof] := by
    simp [emit, Pat.text, Item.text, Base.text, quantText, f10, show isSpace 94 = false by decide,
      show isSpace 43 = false by decide, show isSpace 36 = false by decide, emitF, f1, f2, f3, f4]
  rw [matcher, he]
  simp only [List.all_cons, List.all_nil, Op.ok, f9, show charOk 43 = true by decide, Bool.and_self, if_true]
  congr 1
  cases t with
  | nil => rfl
  | cons c t =>
      cases t with
      | nil => simp [run]
      | cons d t => cases t <;> simp [run]

/-- **C42** is violated: an alternative is no alternative: `^a|b` accepts `a|b` but not `a`. -/
theorem alternative_violated (a b : Byte) (ha : Plain a) (hb : Plain b) :
    matcher [94, a, 124, b] [a] = some false ∧ matcher [94, a, 124, b] [a, 124, b] = some true := by
  obtain ⟨f1, f2, f3, f4, f5, f6, f7, f8, f9, f10, f11⟩ := plain_facts ha
  obtain ⟨g1, g2, g3, g4, g5, g6, g7, g8, g9, g10, g11⟩ := plain_facts hb
  have he : emit [94, a, 124, b] = [.lit a, .lit 124, .lit b] := by
    simp [emit, f10, g10, show isSpace 94 = false by decide, show isSpace 124 = false by decide, emitF, f1, f2,
      f3, f4, g1, g2, g3, g4]
  simp [matcher, he, Op.ok, f9, g9, show charOk 124 = true by decide, run]

/-- **C42** is violated: a class without its end makes the matcher accept every text. -/
theorem unclosed_violated (r : List Byte) (h : (93 : Byte) ∉ r) (t : List Byte) :
    matcher (91 :: r) t = some true := by
  have hc : ∀ l : List Byte, (93 : Byte) ∉ l → cut 93 l = none := by
    intro l
    induction l with
    | nil => intro _; rfl
    | cons c l ih =>
        intro hl
        have : c ≠ 93 := fun e => hl (by simp [e])
        simp [cut, this, ih (fun e => hl (by simp [e]))]
  have he : emit (91 :: r) = [] := by
    have h' : (93 : Byte) ∉ r.filter fun c => !isSpace c := fun e => h (List.mem_filter.1 e).1
    simp [emit, show isSpace 91 = false by decide, emitF, hc _ h']
  simp [matcher, he, run]

/-- **C42** is violated: an escape such as `\.` is written into the C code as `'\'` and does not compile. -/
theorem escape_violated (a : Byte) (ha : Plain a) (t : List Byte) : matcher [92, a] t = none := by
  obtain ⟨f1, f2, f3, f4, f5, f6, f7, f8, f9, f10, f11⟩ := plain_facts ha
  have he : emit [92, a] = [.lit 92, .lit a] := by
    simp [emit, f10, show isSpace 92 = false by decide, emitF, f1, f2, f3, f4]
  simp [matcher, he, Op.ok, show charOk 92 = false by decide]

end Verif.RegexPlugin
