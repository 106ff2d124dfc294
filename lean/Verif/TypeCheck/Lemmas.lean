import Verif.TypeCheck.Model

/-!
# The type checker: its relations on types
-/

namespace Verif.TypeCheck

open Spec

theorem isInteger_iff (t : Ty) : isInteger t = true ↔ Integer t := by
  cases t <;> simp [isInteger, Integer, TypeEq.intNames]

theorem isFloat_iff (t : Ty) : isFloat t = true ↔ Flt t := by
  cases t <;> simp [isFloat, Flt]

theorem numeric_iff (t : Ty) : numeric t = true ↔ Num t := by
  unfold numeric Num
  rw [Bool.or_eq_true, isInteger_iff, isFloat_iff]

theorem isCharPtr_iff (t : Ty) : isCharPtr t = true ↔ CharPtr t := by
  constructor
  · intro h
    unfold isCharPtr at h
    split at h
    · exact .char
    · rename_i n
      have : n = "char" := by simpa using h
      subst this
      exact .named
    · cases h
  · intro h
    cases h <;> rfl

theorem isPtr_iff (t : Ty) : isPtr t = true ↔ Pointer t := by
  constructor
  · intro h
    cases t <;> simp [isPtr] at h
    · exact .string
    · exact .ptr
  · intro h
    cases h <;> rfl

theorem same_typeEq {a b : Ty} (h : Same a b) : typeEq a b = true := by
  induction h with
  | int ha hb =>
      rw [typeEq.eq_def, (isInteger_iff _).2 ha, (isInteger_iff _).2 hb]
      split <;> rfl
  | @float a b ha hb =>
      rw [typeEq.eq_def, (isFloat_iff _).2 ha, (isFloat_iff _).2 hb]
      split
      · rfl
      · split <;> rfl
  | text h => cases h <;> simp [typeEq, isInteger, isFloat, isCharPtr]
  | text' h => cases h <;> simp [typeEq, isInteger, isFloat, isCharPtr]
  | string => rfl
  | void => rfl
  | func => rfl
  | enum => rw [typeEq.eq_def]; simp [isInteger, isFloat]
  | @struct n =>
      rw [typeEq.eq_def]
      by_cases hi : isInteger (.struct n) = true <;> simp [hi, isFloat]
  | ptr _ ih =>
      rw [typeEq.eq_def]
      simp [isInteger, isFloat, ih]
  | array _ ih =>
      rw [typeEq.eq_def]
      simp [isInteger, isFloat, ih]

theorem typeEq_same : ∀ (a b : Ty), Known a → Known b → typeEq a b = true → Same a b := by
  intro a
  induction a with
  | unknown => intro b h; exact h.elim
  | void =>
      intro b _ hb h
      rw [typeEq.eq_def] at h
      cases b <;> simp [isInteger, isFloat, isCharPtr, Known] at h hb
      exact .void
  | string =>
      intro b _ hb h
      by_cases hc : isCharPtr b = true
      · exact .text ((isCharPtr_iff b).1 hc)
      · rw [typeEq.eq_def] at h
        cases b <;> simp [isInteger, isFloat, hc, Known] at h hb
        exact .string
  | char =>
      intro b _ hb h
      by_cases hi : isInteger b = true
      · exact .int (by simp [Integer]) ((isInteger_iff b).1 hi)
      · rw [typeEq.eq_def] at h
        cases b <;> simp [isInteger, isFloat, isCharPtr, Known] at h hb hi
        exact absurd h (by simpa using hi)
  | int k =>
      intro b _ hb h
      by_cases hi : isInteger b = true
      · exact .int (by simp [Integer]) ((isInteger_iff b).1 hi)
      · rw [typeEq.eq_def] at h
        cases b <;> simp [isInteger, isFloat, isCharPtr, Known] at h hb hi
        exact absurd h (by simpa using hi)
  | float k =>
      intro b _ hb h
      rw [typeEq.eq_def] at h
      cases b <;> simp [isInteger, isFloat, isCharPtr, Known] at h hb
      exact .float (by simp [Flt]) (by simp [Flt])
  | struct n =>
      intro b _ hb h
      by_cases hi : isInteger (.struct n) = true ∧ isInteger b = true
      · exact .int ((isInteger_iff _).1 hi.1) ((isInteger_iff _).1 hi.2)
      · rw [typeEq.eq_def] at h
        have hi' : (isInteger (.struct n) && isInteger b) = false := by
          cases e1 : isInteger (.struct n) <;> cases e2 : isInteger b <;> simp_all
        rw [hi'] at h
        cases b <;> simp [isFloat, isCharPtr, Known] at h hb
        subst h
        exact .struct
  | enum n =>
      intro b _ hb h
      rw [typeEq.eq_def] at h
      cases b <;> simp [isInteger, isFloat, isCharPtr, Known] at h hb
      exact .enum
  | func =>
      intro b _ hb h
      rw [typeEq.eq_def] at h
      cases b <;> simp [isInteger, isFloat, isCharPtr, Known] at h hb
      exact .func
  | ptr i ih =>
      intro b ha hb h
      cases b with
      | string =>
          by_cases hc : isCharPtr (.ptr i) = true
          · exact .text' ((isCharPtr_iff _).1 hc)
          · rw [typeEq.eq_def] at h
            simp [isInteger, isFloat, hc] at h
      | ptr j =>
          rw [typeEq.eq_def] at h
          simp [isInteger, isFloat] at h
          exact .ptr (ih j ha hb h)
      | unknown => exact hb.elim
      | _ =>
          rw [typeEq.eq_def] at h
          simp [isInteger, isFloat, isCharPtr] at h
  | array n i ih =>
      intro b ha hb h
      cases b with
      | array m j =>
          rw [typeEq.eq_def] at h
          simp [isInteger, isFloat] at h
          obtain ⟨e, h⟩ := h
          subst e
          exact .array (ih j ha hb h)
      | unknown => exact hb.elim
      | _ =>
          rw [typeEq.eq_def] at h
          simp [isInteger, isFloat, isCharPtr] at h

theorem typeEq_iff {a b : Ty} (ha : Known a) (hb : Known b) : typeEq a b = true ↔ Same a b :=
  ⟨typeEq_same a b ha hb, same_typeEq⟩

theorem isCharType_iff (t : Ty) : isCharType t = true ↔ Charlike t := by
  unfold Charlike
  cases t with
  | int k => cases k <;> simp [isCharType]
  | _ => simp [isCharType]

theorem compatible_iff {a b : Ty} (ha : Known a) (hb : Known b) : compatible a b = true ↔ Fits a b := by
  constructor
  · intro h
    unfold compatible at h
    simp only [Bool.or_eq_true, Bool.and_eq_true, decide_eq_true_eq] at h
    rcases h with (((((h | h) | h) | h) | h) | h) | h
    · exact .same (typeEq_same a b ha hb h)
    · exact .str (by simpa using h.1) (by simpa using h.2)
    · cases a with
      | ptr i => cases i <;> simp [isVoidPtr] at h; exact .toVoid
      | _ => simp [isVoidPtr] at h
    · cases b with
      | ptr i => cases i <;> simp [isVoidPtr] at h; exact .fromVoid
      | _ => simp [isVoidPtr] at h
    · exact .same (.int ((isInteger_iff a).1 h.1) ((isInteger_iff b).1 h.2))
    · cases a with
      | ptr i =>
          cases b with
          | array n j =>
              simp only [decays, Bool.or_eq_true, Bool.and_eq_true] at h
              rcases h with h | h
              · exact .decay (typeEq_same i j ha hb h)
              · exact .chars ((isCharType_iff i).1 h.1) ((isCharType_iff j).1 h.2)
          | _ => simp [decays] at h
      | _ => simp [decays] at h
    · exact .same (.float ((isFloat_iff a).1 h.1) ((isFloat_iff b).1 h.2))
  · intro h
    unfold compatible
    cases h with
    | same h => simp [same_typeEq h]
    | str h1 h2 =>
        have h1' : (a = .string || a = .struct "str") = true := by simpa using h1
        have h2' : (b = .string || b = .struct "string") = true := by simpa using h2
        simp only [h1', h2', Bool.and_self, Bool.or_true, Bool.true_or]
    | toVoid => simp [isVoidPtr]
    | fromVoid => simp [isVoidPtr]
    | decay h => simp [decays, same_typeEq h]
    | chars h1 h2 => simp [decays, (isCharType_iff _).2 h1, (isCharType_iff _).2 h2]

theorem int_known {t : Ty} (h : Integer t) : Known t := by
  cases t <;> simp [Integer, Known] at h ⊢

theorem pointer_not_num {t : Ty} (h : Pointer t) : isInteger t = false ∧ isFloat t = false := by
  cases h <;> exact ⟨rfl, rfl⟩

theorem integer_not_float {t : Ty} (h : Integer t) : isFloat t = false := by
  cases t <;> simp [Integer, isFloat] at h ⊢

theorem integer_not_ptr {t : Ty} (h : Integer t) : isPtr t = false := by
  cases t <;> simp [Integer, isPtr] at h ⊢

theorem float_not {t : Ty} (h : Flt t) : isInteger t = false ∧ isPtr t = false := by
  cases t <;> simp [Flt, isInteger, isPtr] at h ⊢

/-- arithmetic without an error -/
theorem arith_sound {op : BOp} {s t : Ty} {pre : Option Ty} (hs : Known s) (ht : Known t)
    (hm : op = .mod → ¬ Flt s ∧ ¬ Flt t) (h : (arith op s t pre).1 = 0) :
    ∃ u, (arith op s t pre).2 = some u ∧ Arith op s t u ∧ Known u := by
  unfold arith at h ⊢
  split
  · rename_i h1
    simp only [Bool.and_eq_true, decide_eq_true_eq] at h1
    obtain ⟨⟨h1, e⟩, h2⟩ := h1
    subst e
    exact ⟨_, rfl, .diff ((isPtr_iff s).1 h1) ((isPtr_iff t).1 h2), trivial⟩
  · split
    · rename_i h1
      simp only [Bool.and_eq_true, Bool.or_eq_true, decide_eq_true_eq] at h1
      exact ⟨_, rfl, .move h1.1.2 ((isPtr_iff s).1 h1.1.1) ((isInteger_iff t).1 h1.2), hs⟩
    · split
      · rename_i h1
        simp only [Bool.and_eq_true, decide_eq_true_eq] at h1
        obtain ⟨⟨e, h1⟩, h2⟩ := h1
        subst e
        exact ⟨_, rfl, .moved ((isInteger_iff s).1 h1) ((isPtr_iff t).1 h2), ht⟩
      · rename_i n1 n2 n3
        rw [if_neg n1, if_neg n2, if_neg n3] at h
        split
        · rename_i h4
          rw [if_pos h4] at h
          have : ¬ (s = .unknown ∨ t = .unknown) := by
            rintro (e | e) <;> subst e
            · exact hs
            · exact ht
          rw [if_neg this] at h
          cases h
        · rename_i h4
          have hn : numeric s = true ∧ numeric t = true := by
            cases e1 : numeric s <;> cases e2 : numeric t <;> simp_all
          rw [numeric_iff, numeric_iff] at hn
          split
          · rename_i h5
            simp only [Bool.or_eq_true, isFloat_iff] at h5
            refine ⟨_, rfl, .floats ?_ hn.1 hn.2 h5, trivial⟩
            intro e
            rcases h5 with h5 | h5
            · exact (hm e).1 h5
            · exact (hm e).2 h5
          · rename_i h5
            have h5' : ¬ (Flt s ∨ Flt t) := by
              rw [← isFloat_iff, ← isFloat_iff]
              simpa using h5
            refine ⟨_, rfl, .ints ?_ ?_, hs⟩
            · rcases hn.1 with h | h
              · exact h
              · exact absurd (Or.inl h) h5'
            · rcases hn.2 with h | h
              · exact h
              · exact absurd (Or.inr h) h5'

theorem arith_complete {op : BOp} {s t u : Ty} (pre : Option Ty) (h : Arith op s t u) :
    arith op s t pre = (0, some u) := by
  cases h with
  | diff h1 h2 =>
      unfold arith
      rw [(isPtr_iff s).2 h1, (isPtr_iff t).2 h2]
      rfl
  | move h0 h1 h2 =>
      unfold arith
      rw [(isPtr_iff s).2 h1, (isInteger_iff t).2 h2, integer_not_ptr h2]
      rcases h0 with e | e <;> subst e <;> rfl
  | moved h1 h2 =>
      unfold arith
      rw [(isPtr_iff t).2 h2, (isInteger_iff s).2 h1, integer_not_ptr h1]
      rfl
  | ints h1 h2 =>
      have n1 : numeric s = true := (numeric_iff s).2 (Or.inl h1)
      have n2 : numeric t = true := (numeric_iff t).2 (Or.inl h2)
      unfold arith
      rw [integer_not_ptr h1, integer_not_ptr h2, integer_not_float h1, integer_not_float h2, n1, n2]
      simp
  | floats h0 h1 h2 h3 =>
      have n1 : numeric s = true := (numeric_iff s).2 h1
      have n2 : numeric t = true := (numeric_iff t).2 h2
      have p : ∀ v, Num v → isPtr v = false := by
        intro v hv
        rcases hv with hv | hv
        · exact integer_not_ptr hv
        · exact (float_not hv).2
      have hf : (isFloat s || isFloat t) = true := by
        rw [Bool.or_eq_true, isFloat_iff, isFloat_iff]; exact h3
      unfold arith
      rw [p s h1, p t h2, n1, n2, hf]
      simp

theorem isZero_iff (e : Expr) : isZero e = true ↔ ZeroLit e := by
  cases e with
  | int v => cases v <;> simp [isZero, ZeroLit]
  | flt z => cases z <;> simp [isZero, ZeroLit]
  | _ => simp [isZero, ZeroLit]

theorem wideShift_iff (s : Ty) (e : Expr) : wideShift (some s) e = true ↔ TooFar s e := by
  unfold wideShift TooFar Wide32
  split
  · simp only [Bool.or_eq_true, Bool.and_eq_true, decide_eq_true_eq]
    constructor
    · rintro (h | ⟨h, h2⟩)
      · exact Or.inl h
      · refine Or.inr ⟨h, ?_⟩
        split at h2 <;> simp_all
    · rintro (h | ⟨h, h2⟩)
      · exact Or.inl h
      · refine Or.inr ⟨h, ?_⟩
        simp only [List.mem_cons, List.not_mem_nil, or_false] at h2
        rcases h2 with e | e | e | e | e | e <;> subst e <;> rfl
  · simp

end Verif.TypeCheck
