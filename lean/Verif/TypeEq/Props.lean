import Verif.TypeEq.Model

/-!
# Type equality: property C35
-/

namespace Verif.TypeEq

open Spec

theorem heap_at {mem : Nat → Ty} : ∀ {t : Ty}, Heap.At mem t → mem t.addr = t := by
  intro t h
  cases t <;> first | exact h.1 | exact h

theorem heap_eq {a b : Ty} (h : Heap a b) (he : a.addr = b.addr) : a = b := by
  obtain ⟨mem, h1, h2⟩ := h
  rw [← heap_at h1, ← heap_at h2, he]

theorem heap_inner {a b i j : Ty} (h : Heap a b)
    (ha : ∀ mem, Heap.At mem a → Heap.At mem i) (hb : ∀ mem, Heap.At mem b → Heap.At mem j) :
    Heap i j := by
  obtain ⟨mem, h1, h2⟩ := h
  exact ⟨mem, ha _ h1, hb _ h2⟩

/-- C35: an object is equal to itself, and so is every copy of an alias-free type.  Missing: copies of
aliases. -/
theorem refl_partial {a b : Ty} (h : Copy a b) (hp : Plain a) : typeEq a a = true ∧ typeEq a b = true := by
  refine ⟨by rw [typeEq.eq_def]; simp, ?_⟩
  induction h with
  | alias => exact hp.elim
  | unknown => exact hp.elim
  | ptr a b _ ih => rw [typeEq.eq_def]; simp [isUnknown, isInteger, isFloat, isString, ih hp]
  | array a b n _ ih => rw [typeEq.eq_def]; simp [isUnknown, isInteger, isFloat, isString, ih hp]
  | vector a b n _ ih => rw [typeEq.eq_def]; simp [isUnknown, isInteger, isFloat, isString, ih hp]
  | _ => rw [typeEq.eq_def]; simp [isInteger]

/-- C35: two objects for one alias are different types. -/
theorem alias_copy_violated (a b c d : Nat) (n : String) (k : IntK) (hab : a ≠ b) (hcb : c ≠ b) :
    Copy (.alias a false n (.int c k)) (.alias b false n (.int d k)) ∧
      typeEq (.alias a false n (.int c k)) (.alias b false n (.int d k)) = false := by
  refine ⟨.alias _ _ _ _ (.int _ _ _), ?_⟩
  rw [typeEq.eq_def]
  simp [Ty.addr, hab, isUnknown, isInteger, isFloat, isString]
  rw [typeEq.eq_def]
  simp [Ty.addr, hcb, isUnknown, isInteger, isFloat, isString]

/-- C35: an alias is not the type it stands for. -/
theorem alias_target_violated (a c : Nat) (n : String) (k : IntK) (hac : a ≠ c) :
    typeEq (.alias a false n (.int c k)) (.int c k) = false := by
  rw [typeEq.eq_def]
  simp [Ty.addr, hac, isUnknown, isInteger, isFloat, isString]

/-- shapes and the tests of `type_eq` -/
theorem shape_int {t : Ty} : isInteger t = true ↔ shape t = .int := by
  cases t with
  | struct a n =>
    simp only [isInteger, shape, List.contains_iff_mem]
    show n ∈ intNames ↔ (if n ∈ intNames then Shape.int else Shape.struct n) = Shape.int
    split <;> simp [*]
  | _ => simp [isInteger, shape]

theorem shape_float {t : Ty} : isFloat t = true ↔ shape t = .float := by
  cases t <;> simp [isFloat, shape]
  split <;> simp

theorem plain_unknown {t : Ty} (h : Plain t) : isUnknown t = false := by
  cases t <;> simp_all [isUnknown, Plain]

theorem noString {t : Ty} (h : NoString t) : isString t = false := by
  cases t <;> simp_all [isString, NoString]

/-- C35: without unknown types, aliases and strings, `type_eq` is equality up to integer and floating
kinds, names of enums and signatures. -/
theorem typeEq_shape : (a b : Ty) → Heap a b → Plain a → Plain b → NoString a → NoString b →
    (typeEq a b = true ↔ shape a = shape b)
  | a, b, hh, ha, hb, sa, sb => by
    by_cases he : a.addr = b.addr
    · obtain rfl := heap_eq hh he
      rw [typeEq.eq_def]; simp
    rw [typeEq.eq_def]
    simp only [he, if_false, plain_unknown ha, plain_unknown hb, noString sa, noString sb, Bool.or_self,
      Bool.false_and, Bool.false_eq_true]
    by_cases hi : isInteger a = true ∧ isInteger b = true
    · simp [hi.1, hi.2, shape_int.mp hi.1, shape_int.mp hi.2]
    by_cases hf : isFloat a = true ∧ isFloat b = true
    · have : ¬ (isInteger a && isInteger b) = true := by simpa using hi
      simp [this, hf.1, hf.2, shape_float.mp hf.1, shape_float.mp hf.2]
    have hi' : (isInteger a && isInteger b) = false := by simpa using hi
    have hf' : (isFloat a && isFloat b) = false := by simpa using hf
    simp only [hi', hf', Bool.false_eq_true, if_false]
    have rec_ptr : ∀ x y i j, a = .ptr x i → b = .ptr y j → (typeEq i j = true ↔ shape i = shape j) := by
      rintro x y i j rfl rfl
      exact typeEq_shape i j (heap_inner hh (fun _ h => h.2) (fun _ h => h.2)) ha hb sa sb
    have rec_arr : ∀ x y n m i j, a = .array x n i → b = .array y m j →
        (typeEq i j = true ↔ shape i = shape j) := by
      rintro x y n m i j rfl rfl
      exact typeEq_shape i j (heap_inner hh (fun _ h => h.2) (fun _ h => h.2)) ha hb sa sb
    have rec_vec : ∀ x y n m i j, a = .vector x n i → b = .vector y m j →
        (typeEq i j = true ↔ shape i = shape j) := by
      rintro x y n m i j rfl rfl
      exact typeEq_shape i j (heap_inner hh (fun _ h => h.2) (fun _ h => h.2)) ha hb sa sb
    clear he hh
    cases a with
    | ptr x i =>
      cases b with
      | ptr y j => simpa [shape] using rec_ptr x y i j rfl rfl
      | struct y n => simp only [shape]; split <;> simp
      | _ => simp [shape]
    | array x n i =>
      cases b with
      | array y m j =>
        have := rec_arr x y n m i j rfl rfl
        simp [shape, this]
      | struct y n => simp only [shape]; split <;> simp
      | _ => simp [shape]
    | vector x n i =>
      cases b with
      | vector y m j =>
        have := rec_vec x y n m i j rfl rfl
        simp [shape, this]
      | struct y n => simp only [shape]; split <;> simp
      | _ => simp [shape]
    | unknown => exact ha.elim
    | alias => exact ha.elim
    | string => exact sa.elim
    | struct x n =>
      cases b with
      | struct y m =>
        simp only [isInteger, intNames] at hi
        simp only [shape]
        split <;> split
        · rename_i h1 h2
          exact absurd ⟨by simpa using h1, by simpa using h2⟩ hi
        · rename_i h1 h2
          simp only [beq_iff_eq, reduceCtorEq, iff_false]
          rintro rfl
          exact h2 h1
        · rename_i h1 h2
          simp only [beq_iff_eq, reduceCtorEq, iff_false]
          rintro rfl
          exact h1 h2
        · simp
      | int y k => 
        have h1 := shape_int (t := .struct x n)
        simp only [isInteger, and_true] at hi
        simp only [shape] at h1 ⊢
        simp only [isInteger] at h1
        exact ⟨fun h => absurd h (by simp), fun h => absurd (h1.mpr h) hi⟩
      | char y => 
        have h1 := shape_int (t := .struct x n)
        simp only [isInteger, and_true] at hi
        simp only [shape] at h1 ⊢
        simp only [isInteger] at h1
        exact ⟨fun h => absurd h (by simp), fun h => absurd (h1.mpr h) hi⟩
      | bitint y s w => 
        have h1 := shape_int (t := .struct x n)
        simp only [isInteger, and_true] at hi
        simp only [shape] at h1 ⊢
        simp only [isInteger] at h1
        exact ⟨fun h => absurd h (by simp), fun h => absurd (h1.mpr h) hi⟩
      | unknown => exact hb.elim
      | alias => exact hb.elim
      | string => exact sb.elim
      | _ => simp only [shape]; split <;> simp
    | int x k =>
      cases b with
      | struct y n =>
        have h1 := shape_int (t := .struct y n)
        simp only [isInteger, true_and] at hi
        simp only [shape] at h1 ⊢
        simp only [isInteger] at h1
        exact ⟨fun h => absurd h (by simp), fun h => absurd (h1.mpr h.symm) hi⟩
      | unknown => exact hb.elim
      | alias => exact hb.elim
      | string => exact sb.elim
      | _ => simp_all [shape, isInteger]
    | char x =>
      cases b with
      | struct y n =>
        have h1 := shape_int (t := .struct y n)
        simp only [isInteger, true_and] at hi
        simp only [shape] at h1 ⊢
        simp only [isInteger] at h1
        exact ⟨fun h => absurd h (by simp), fun h => absurd (h1.mpr h.symm) hi⟩
      | unknown => exact hb.elim
      | alias => exact hb.elim
      | string => exact sb.elim
      | _ => simp_all [shape, isInteger]
    | bitint x s w =>
      cases b with
      | struct y n =>
        have h1 := shape_int (t := .struct y n)
        simp only [isInteger, true_and] at hi
        simp only [shape] at h1 ⊢
        simp only [isInteger] at h1
        exact ⟨fun h => absurd h (by simp), fun h => absurd (h1.mpr h.symm) hi⟩
      | unknown => exact hb.elim
      | alias => exact hb.elim
      | string => exact sb.elim
      | _ => simp_all [shape, isInteger]
    | _ =>
      cases b with
      | struct y n => simp only [shape]; split <;> simp
      | unknown => exact hb.elim
      | alias => exact hb.elim
      | string => exact sb.elim
      | _ => simp_all [shape, isFloat]
termination_by a => sizeOf a

/-- C35: symmetry and transitivity on these types.  Missing: unknown types, aliases, strings. -/
theorem equivalence_partial {a b c : Ty} (hab : Heap a b) (hbc : Heap b c) (hac : Heap a c)
    (pa : Plain a) (pb : Plain b) (pc : Plain c) (sa : NoString a) (sb : NoString b) (sc : NoString c) :
    (typeEq a b = typeEq b a) ∧ (typeEq a b = true → typeEq b c = true → typeEq a c = true) := by
  have hba : Heap b a := let ⟨m, h1, h2⟩ := hab; ⟨m, h2, h1⟩
  constructor
  · rw [Bool.eq_iff_iff, typeEq_shape a b hab pa pb sa sb, typeEq_shape b a hba pb pa sb sa]
    exact eq_comm
  · rw [typeEq_shape a b hab pa pb sa sb, typeEq_shape b c hbc pb pc sb sc, typeEq_shape a c hac pa pc sa sc]
    exact Eq.trans

/-- C35: symmetry also with unknown types and strings (not with aliases). -/
theorem symm_partial : (a b : Ty) → Heap a b → NoAlias a → NoAlias b → typeEq a b = typeEq b a
  | a, b, hh, na, nb => by
    by_cases he : a.addr = b.addr
    · rw [typeEq.eq_def a b, typeEq.eq_def b a]; simp [he]
    rw [typeEq.eq_def a b, typeEq.eq_def b a]
    have he' : ¬ b.addr = a.addr := fun h => he h.symm
    simp only [he, he', if_false, Bool.or_comm (isUnknown b), Bool.and_comm (isInteger b),
      Bool.and_comm (isFloat b)]
    by_cases h1 : (isUnknown a || isUnknown b) = true
    · simp [h1]
    by_cases h2 : (isInteger a && isInteger b) = true
    · simp [h2]
    by_cases h3 : (isFloat a && isFloat b) = true
    · simp [h3]
    by_cases h4 : (isString a && isCharPtr b) = true
    · simp [h4]
    by_cases h5 : (isString b && isCharPtr a) = true
    · simp [h5]
    simp only [h1, h2, h3, h4, h5, if_false]
    cases a with
    | ptr x i =>
      cases b with
      | ptr y j => simpa using symm_partial i j (heap_inner hh (fun _ h => h.2) (fun _ h => h.2)) na nb
      | _ => simp
    | array x n i =>
      cases b with
      | array y m j =>
        have := symm_partial i j (heap_inner hh (fun _ h => h.2) (fun _ h => h.2)) na nb
        simp [this, Bool.beq_comm]
      | _ => simp
    | vector x n i =>
      cases b with
      | vector y m j =>
        have := symm_partial i j (heap_inner hh (fun _ h => h.2) (fun _ h => h.2)) na nb
        simp [this, Bool.beq_comm]
      | _ => simp
    | alias => exact na.elim
    | struct x n =>
      cases b with
      | struct y m => simp [Bool.beq_comm]
      | _ => simp
    | generic x n =>
      cases b with
      | generic y m => simp [Bool.beq_comm]
      | _ => simp
    | _ => cases b <;> simp
termination_by a => sizeOf a

/-- C35: not symmetric: the alias of an alias equals that alias, but not the other way round. -/
theorem symm_violated (n m : String) (k : IntK) (a b c : Nat) (hab : a ≠ b) (hac : a ≠ c) :
    let inner : Ty := .alias b false m (.int c k)
    let outer : Ty := .alias a false n inner
    typeEq outer inner = true ∧ typeEq inner outer = false := by
  constructor
  · rw [typeEq.eq_def]
    simp [Ty.addr, hab, isUnknown, isInteger, isFloat, isString]
    rw [typeEq.eq_def]
    simp
  · rw [typeEq.eq_def]
    simp [Ty.addr, hab.symm, isUnknown, isInteger, isFloat, isString]
    rw [typeEq.eq_def]
    simp [Ty.addr, hac.symm, isUnknown, isInteger, isFloat, isString]

/-- C35: not transitive: every type equals an unknown one. -/
theorem trans_unknown_violated (a c : Ty) (x : Nat) :
    typeEq a (.unknown x) = true ∧ typeEq (.unknown x) c = true := by
  constructor <;> (rw [typeEq.eq_def]; simp [isUnknown])

/-- C35: not transitive: a string equals `char*`, which equals every pointer to an integer, which a
string does not equal. -/
theorem trans_string_violated (s p c q i : Nat) (k : IntK) (h2 : p ≠ q) (h3 : s ≠ q) :
    typeEq (.string s) (.ptr p (.char c)) = true ∧ typeEq (.ptr p (.char c)) (.ptr q (.int i k)) = true ∧
      typeEq (.string s) (.ptr q (.int i k)) = false := by
  refine ⟨?_, ?_, ?_⟩
  · rw [typeEq.eq_def]; simp [isString, isCharPtr]
  · rw [typeEq.eq_def]
    simp [Ty.addr, h2, isUnknown, isInteger, isFloat, isString]
    rw [typeEq.eq_def]
    simp [isInteger]
  · rw [typeEq.eq_def]
    simp [Ty.addr, h3, isUnknown, isInteger, isFloat, isString, isCharPtr]

/-- C35: all enums are one type, and all function types. -/
theorem enum_violated (a b : Nat) (n m : String) (p q : List String) (r s : String) :
    typeEq (.enum a n) (.enum b m) = true ∧ typeEq (.func a p r) (.func b q s) = true := by
  constructor <;> (rw [typeEq.eq_def]; simp)

/-- C35: differently named structs are different, at any depth of pointers. -/
theorem struct_names (n m : String) (h : n ≠ m) (hn : n ∉ intNames) (a b : Nat) (hab : a ≠ b) :
    typeEq (.struct a n) (.struct b m) = false := by
  rw [typeEq.eq_def]
  simp [Ty.addr, hab, isUnknown, isInteger, isFloat, isString, hn, h]

/-- C35: an opaque alias equals exactly the opaque aliases of its name; it equals no transparent alias,
even of the same name. -/
theorem opaque_alias (a b : Nat) (hab : a ≠ b) (n m : String) (p : Bool) (i j : Ty) :
    typeEq (.alias a true n i) (.alias b p m j) = true ↔ p = true ∧ n = m := by
  rw [typeEq.eq_def]
  simp [Ty.addr, hab, isUnknown, isInteger, isFloat, isString]

/-- C35: an opaque alias equals no type that is neither an alias nor unknown, its own target
included. -/
theorem opaque_target (a : Nat) (n : String) (i t : Ty) (ht : a ≠ t.addr)
    (hu : ∀ x, t ≠ .unknown x) (hal : ∀ x o m j, t ≠ .alias x o m j) :
    typeEq (.alias a true n i) t = false := by
  rw [typeEq.eq_def]
  cases t with
  | alias x o m j => exact absurd rfl (hal x o m j)
  | _ => simp_all [Ty.addr, isUnknown, isInteger, isFloat, isString, isCharPtr]

/-! ## Cases -/

/-- `opaque alias Id = int` against `int` -/
example : typeEq (.alias 1 true "Id" (.int 2 .int)) (.int 2 .int) = false :=
  opaque_target 1 "Id" _ _ (by simp [Ty.addr]) (by simp) (by simp)

/-- `*int` and `*u8`, in one heap -/
example : Heap (.ptr 1 (.int 2 .int)) (.ptr 3 (.int 4 .u8)) ∧ Plain (.ptr 1 (.int 2 .int)) ∧
    NoString (.ptr 3 (.int 4 .u8)) :=
  ⟨⟨fun n => if n = 1 then .ptr 1 (.int 2 .int) else if n = 2 then .int 2 .int
      else if n = 3 then .ptr 3 (.int 4 .u8) else .int 4 .u8, by simp [Heap.At, Ty.addr], by simp [Heap.At, Ty.addr]⟩,
    trivial, trivial⟩

/-- `[3]Foo` and a copy -/
example : Copy (.array 1 3 (.struct 2 "Foo")) (.array 5 3 (.struct 6 "Foo")) := .array _ _ _ (.struct _ _ _)

end Verif.TypeEq
