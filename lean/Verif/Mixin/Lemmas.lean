import Verif.Mixin.Model

/-!
# Lemmas on layouts and on methods run through a cast
-/

namespace Verif.Mixin
open Verif Spec

theorem up_ge (n a : Nat) (h : 0 < a) : n ≤ up n a := by
  unfold up
  have h1 := Nat.div_add_mod (n + (a - 1)) a
  have h2 := Nat.mod_lt (n + (a - 1)) h
  rw [Nat.mul_comm] at h1
  omega

theorem up_zero (a : Nat) (h : 0 < a) : up 0 a = 0 := by
  unfold up
  have : (0 + (a - 1)) / a = 0 := Nat.div_eq_of_lt (by omega)
  rw [this, Nat.zero_mul]

theorem place_ge (p : Bool) (off : Nat) (f : Fld) (h : 0 < f.size ∧ 0 < f.align) :
    off ≤ place p off f := by
  unfold place
  split
  · apply up_ge
    cases p <;> simp <;> omega
  · split
    · exact Nat.le_refl _
    · split
      · exact Nat.le_refl _
      · apply up_ge; omega

theorem place_zero (p : Bool) (f : Fld) (h : 0 < f.size ∧ 0 < f.align) (hw : f.width = 0) :
    place p 0 f = 0 := by
  unfold place
  rw [if_pos hw]
  apply up_zero
  cases p <;> simp <;> omega

theorem len_pos (f : Fld) (h : 0 < f.size ∧ 0 < f.align) : 0 < len f := by
  unfold len
  split <;> omega

/-- The end of a layout. -/
def stop (p : Bool) : Nat → List Fld → Nat
  | off, [] => off
  | off, f :: r => stop p (place p off f + len f) r

theorem layout_append (p : Bool) (off : Nat) (a b : List Fld) :
    layout p off (a ++ b) = layout p off a ++ layout p (stop p off a) b := by
  induction a generalizing off with
  | nil => rfl
  | cons f r ih => simp only [List.cons_append, layout, stop, ih]

theorem stop_ge (p : Bool) (off : Nat) (a : List Fld) (h : Sized a) : off ≤ stop p off a := by
  induction a generalizing off with
  | nil => exact Nat.le_refl _
  | cons f r ih =>
    have h1 := place_ge p off f (h f (by simp))
    have h2 := ih (place p off f + len f) (fun g hg => h g (by simp [hg]))
    show off ≤ stop p (place p off f + len f) r
    omega

theorem stop_pos (p : Bool) (off : Nat) (a : List Fld) (h : Sized a) (hne : a ≠ []) :
    off < stop p off a := by
  cases a with
  | nil => exact absurd rfl hne
  | cons f r =>
    have h1 := place_ge p off f (h f (by simp))
    have h2 := stop_ge p (place p off f + len f) r (fun g hg => h g (by simp [hg]))
    have h3 := len_pos f (h f (by simp))
    show off < stop p (place p off f + len f) r
    omega

theorem layout_range (p : Bool) (off : Nat) (a : List Fld) (h : Sized a) :
    ∀ q ∈ layout p off a, off ≤ q.2 ∧ q.2 + len q.1 ≤ stop p off a := by
  induction a generalizing off with
  | nil => intro q hq; simp [layout] at hq
  | cons f r ih =>
    have h0 := h f (by simp)
    have hr : Sized r := fun g hg => h g (by simp [hg])
    intro q hq
    simp only [layout, List.mem_cons] at hq
    have h1 := place_ge p off f h0
    have h2 := stop_ge p (place p off f + len f) r hr
    rcases hq with rfl | hq
    · exact ⟨h1, h2⟩
    · have := ih (place p off f + len f) hr q hq
      refine ⟨by omega, this.2⟩

theorem layout_disjoint (p : Bool) (off : Nat) (a : List Fld) (h : Sized a) :
    ∀ q ∈ layout p off a, ∀ t ∈ layout p off a, q.1.name ≠ t.1.name →
      q.2 + len q.1 ≤ t.2 ∨ t.2 + len t.1 ≤ q.2 := by
  induction a generalizing off with
  | nil => intro q hq; simp [layout] at hq
  | cons f r ih =>
    have hr : Sized r := fun g hg => h g (by simp [hg])
    intro q hq t ht hne
    simp only [layout, List.mem_cons] at hq ht
    rcases hq with rfl | hq <;> rcases ht with rfl | ht
    · exact absurd rfl hne
    · exact .inl (layout_range p _ r hr t ht).1
    · exact .inr (layout_range p _ r hr q hq).1
    · exact ih _ hr q hq t ht hne

theorem layout_fst (p : Bool) (off : Nat) (a : List Fld) : (layout p off a).map Prod.fst = a := by
  induction a generalizing off with
  | nil => rfl
  | cons f r ih => simp only [layout, List.map_cons, ih]

theorem places_fst (d : SDef) : (places d).map Prod.fst = d.fields := by
  unfold places
  split
  · rw [List.map_map]
    exact List.map_id' _
  · exact layout_fst _ _ _

theorem find_fst (ps : List (Fld × Nat)) (n : String) :
    (ps.map Prod.fst).find? (fun g => g.name == n)
      = (ps.find? (fun p => p.1.name == n)).map Prod.fst := by
  induction ps with
  | nil => rfl
  | cons p r ih =>
    simp only [List.map_cons, List.find?_cons]
    cases h : (p.1.name == n)
    · exact ih
    · rfl

theorem slot_some {d : SDef} {n : String} {p : Nat × Nat} (h : slot d n = some p) :
    ∃ g, d.fields.find? (fun g => g.name == n) = some g ∧ p.2 = len g ∧ (g, p.1) ∈ places d
      ∧ g.name = n := by
  unfold slot at h
  cases hf : (places d).find? (fun p => p.1.name == n) with
  | none => simp [hf] at h
  | some q =>
    simp only [hf, Option.map_some, Option.some.injEq] at h
    subst h
    have := find_fst (places d) n
    rw [places_fst, hf] at this
    refine ⟨q.1, this, rfl, List.mem_of_find?_eq_some hf, ?_⟩
    have := List.find?_some hf
    simpa using this

theorem slot_none {d : SDef} {n : String} (h : slot d n = none) :
    d.fields.find? (fun g => g.name == n) = none := by
  unfold slot at h
  have := find_fst (places d) n
  rw [places_fst] at this
  rw [this]
  cases hf : (places d).find? (fun p => p.1.name == n) with
  | none => rfl
  | some q => simp [hf] at h

theorem any_find (fs : List Fld) (n : String) :
    fs.any (fun g => g.name == n) = (fs.find? (fun g => g.name == n)).isSome := by
  induction fs with
  | nil => rfl
  | cons f r ih =>
    simp only [List.any_cons, List.find?_cons]
    cases h : (f.name == n)
    · simpa using ih
    · simp

theorem get_put_same (m v : Bits) (s l : Nat) : get (put m s l v) s l = trim l v := by
  funext i
  simp only [get, put, trim]
  split
  · rw [if_pos (by omega)]
    congr 1
    omega
  · rfl

theorem get_put_disjoint (m v : Bits) (s l s' l' : Nat) (h : s + l ≤ s' ∨ s' + l' ≤ s) :
    get (put m s l v) s' l' = get m s' l' := by
  funext i
  simp only [get, put]
  split
  · rw [if_neg (by omega)]
  · rfl

theorem get_put_inside (m v : Bits) (S s l : Nat) (h : s + l ≤ S) :
    get (put m 0 S v) s l = get v s l := by
  funext i
  simp only [get, put]
  split
  · rw [if_pos (by omega)]
    congr 1
  · rfl

/-- Every field of `k` has in `d` the place it has in `k`. -/
def Same (d k : SDef) : Prop :=
  ∀ f ∈ k.fields, slot d f.name = slot k f.name

/-- The fields of `d` do not overlap. -/
def Apart (d : SDef) : Prop :=
  ∀ n n' p q, n ≠ n' → slot d n = some p → slot d n' = some q →
    p.1 + p.2 ≤ q.1 ∨ q.1 + q.2 ≤ p.1

/-- The fields of `d` that are not fields of `k` are beyond the size of `k`. -/
def Beyond (d k : SDef) : Prop :=
  ∀ n p, slot k n = none → slot d n = some p → sizeOf k ≤ p.1

theorem slot_mem {k : SDef} {n : String} {p : Nat × Nat} (h : slot k n = some p) :
    ∃ f ∈ k.fields, f.name = n := by
  obtain ⟨g, h1, _, _, h4⟩ := slot_some h
  exact ⟨g, List.mem_of_find?_eq_some h1, h4⟩

theorem alignOf_pos (d : SDef) : 0 < alignOf d := by
  unfold alignOf
  split
  · omega
  · generalize hfs : d.fields = fs
    have : ∀ (fs : List Fld) (a : Nat), 0 < a → 0 < fs.foldl (fun a f => max a f.align) a := by
      intro fs
      induction fs with
      | nil => intro a h; exact h
      | cons f r ih => intro a h; exact ih _ (by show 0 < max a f.align; omega)
    exact this fs 1 (by omega)

theorem extent_ge (ps : List (Fld × Nat)) (p : Fld × Nat) (h : p ∈ ps) :
    p.2 + len p.1 ≤ extent ps := by
  have mono : ∀ (ps : List (Fld × Nat)) (a : Nat),
      a ≤ ps.foldl (fun a p => max a (p.2 + len p.1)) a := by
    intro ps
    induction ps with
    | nil => intro a; exact Nat.le_refl _
    | cons q r ih => intro a; have := ih (max a (q.2 + len q.1)); simp only [List.foldl_cons]; omega
  have : ∀ (ps : List (Fld × Nat)) (a : Nat), p ∈ ps →
      p.2 + len p.1 ≤ ps.foldl (fun a p => max a (p.2 + len p.1)) a := by
    intro ps
    induction ps with
    | nil => intro a h; simp at h
    | cons q r ih =>
      intro a h
      simp only [List.foldl_cons]
      rcases List.mem_cons.mp h with rfl | h
      · have := mono r (max a (p.2 + len p.1)); omega
      · exact ih _ h
  exact this ps 0 h

theorem extent_le (ps : List (Fld × Nat)) (b : Nat) (h : ∀ p ∈ ps, p.2 + len p.1 ≤ b) :
    extent ps ≤ b := by
  have : ∀ (ps : List (Fld × Nat)) (a : Nat), a ≤ b → (∀ p ∈ ps, p.2 + len p.1 ≤ b) →
      ps.foldl (fun a p => max a (p.2 + len p.1)) a ≤ b := by
    intro ps
    induction ps with
    | nil => intro a h _; exact h
    | cons q r ih =>
      intro a ha h
      simp only [List.foldl_cons]
      have := h q (by simp)
      exact ih _ (by omega) (fun p hp => h p (by simp [hp]))
  exact this ps 0 (Nat.zero_le _) h

theorem slot_inside {k : SDef} {n : String} {p : Nat × Nat} (h : slot k n = some p) :
    p.1 + p.2 ≤ sizeOf k := by
  obtain ⟨g, _, h2, h3, _⟩ := slot_some h
  have h4 := extent_ge (places k) (g, p.1) h3
  have h5 := up_ge (extent (places k)) (8 * alignOf k) (by have := alignOf_pos k; omega)
  unfold sizeOf
  simp only at h4
  omega

/-- Places that agree make methods work through the cast. -/
theorem works_of_same {d k : SDef} (hs : Same d k) (ha : Apart d) {c : Code}
    (hc : NoAssign c ∨ Beyond d k) : Works d k c := by
  have hs' : ∀ {n p}, slot k n = some p → slot d n = some p := by
    intro n p h
    obtain ⟨f, hf, hn⟩ := slot_mem h
    have := hs f hf
    rw [hn] at this
    rw [this, h]
  induction c with
  | ret v => intro m; rfl
  | read f kk ih =>
    intro m
    simp only [run, exec, any_find]
    cases h : slot k f with
    | none => simp [slot_none h]
    | some p =>
      obtain ⟨g, h1, _, _, _⟩ := slot_some h
      have hv : val d m f = get m p.1 p.2 := by
        simp only [val, hs' h]
      simp only [h1, Option.isSome_some, if_pos, hv]
      apply ih
      rcases hc with hc | hc
      · cases hc with | read _ _ h => exact .inl (h _)
      · exact .inr hc
  | write f v kk ih =>
    intro m
    simp only [run, exec]
    cases h : slot k f with
    | none => simp [slot_none h]
    | some p =>
      obtain ⟨g, h1, h2, _, _⟩ := slot_some h
      simp only [h1]
      rw [ih (by
        rcases hc with hc | hc
        · cases hc with | write _ _ _ h => exact .inl h
        · exact .inr hc)]
      congr 1
      funext n
      by_cases hn : n = f
      · subst hn
        rw [if_pos rfl, ← h2]
        simp only [val, hs' h]
        exact get_put_same _ _ _ _
      · rw [if_neg hn]
        simp only [val]
        cases hq : slot d n with
        | none => rfl
        | some q => exact get_put_disjoint _ _ _ _ _ _ (ha f n p q (Ne.symm hn) (hs' h) hq)
  | assign src kk ih =>
    intro m
    simp only [run, exec]
    rcases hc with hc | hc
    · cases hc
    rw [ih (.inr hc)]
    congr 1
    funext n
    rw [any_find]
    cases h : slot k n with
    | none =>
      simp only [slot_none h, Option.isSome_none, Bool.false_eq_true, if_false, val]
      cases hq : slot d n with
      | none => rfl
      | some q =>
        exact get_put_disjoint _ _ _ _ _ _ (.inl (by have := hc n q h hq; omega))
    | some p =>
      obtain ⟨g, h1, _, _, _⟩ := slot_some h
      simp only [h1, Option.isSome_some, if_pos, val, hs' h, h]
      exact get_put_inside _ _ _ _ _ (slot_inside h)

/-- The getter of a field. -/
def getter (f : String) : Code := .read f (fun v => .ret v)

/-- A getter works for all contents of memory only if the places agree. -/
theorem getter_same {d k : SDef} {f : String} {p q : Nat × Nat} (hk : slot k f = some p)
    (hd : slot d f = some q) (hp : 0 < p.2) (h : Works d k (getter f)) : p = q := by
  obtain ⟨g, h1, _, _, _⟩ := slot_some hk
  have key : ∀ m, get m p.1 p.2 = get m q.1 q.2 := by
    intro m
    have := h m
    simp only [getter, run, hk, exec, any_find, h1, Option.isSome_some, if_pos, Option.map_some,
      Option.some.injEq, Prod.mk.injEq, val, hd] at this
    exact this.1
  obtain ⟨s, l⟩ := p
  obtain ⟨s', l'⟩ := q
  have h1 := congrFun (key (fun i => i == s)) 0
  simp only [get, Nat.add_zero, beq_self_eq_true] at h1
  rw [if_pos hp] at h1
  have hs : s' = s := by
    split at h1
    · exact (by simpa using h1.symm)
    · exact absurd h1 (by decide)
  have h2 := fun i => congrFun (key (fun _ => true)) i
  simp only [get] at h2
  have hl : l = l' := by
    have a := h2 l
    have b := h2 l'
    by_cases h3 : l < l'
    · simp [h3] at a
    · by_cases h4 : l' < l
      · simp [h4] at b
      · omega
  rw [hs, hl]

/-- Fields of a struct that is not a union do not overlap. -/
theorem apart_of (d : SDef) (hu : d.union = false) (hs : Sized d.fields) : Apart d := by
  intro n n' p q hne hp hq
  obtain ⟨g, _, h2, h3, h4⟩ := slot_some hp
  obtain ⟨g', _, h2', h3', h4'⟩ := slot_some hq
  unfold places at h3 h3'
  rw [hu] at h3 h3'
  have := layout_disjoint d.packed 0 d.fields hs _ h3 _ h3' (by simp only [h4, h4']; exact hne)
  rw [h2, h2']
  exact this

theorem slot_append (d k : SDef) (rest : List Fld) (hu : d.union = false) (hku : k.union = false)
    (hp : d.packed = k.packed) (hf : d.fields = k.fields ++ rest) (n : String) :
    slot d n = (slot k n).or
      (((layout d.packed (stop d.packed 0 k.fields) rest).find? (fun p => p.1.name == n)).map
        (fun p => (p.2, len p.1))) := by
  unfold slot places
  rw [hu, hku, hf, hp]
  simp only [Bool.false_eq_true, if_false, layout_append, List.find?_append]
  cases (layout k.packed 0 k.fields).find? (fun p => p.1.name == n) with
  | none => simp
  | some q => simp

theorem same_of (d k : SDef) (rest : List Fld) (hu : d.union = false) (hku : k.union = false)
    (hp : d.packed = k.packed) (hf : d.fields = k.fields ++ rest) : Same d k := by
  intro f hm
  rw [slot_append d k rest hu hku hp hf]
  cases h : slot k f.name with
  | some p => rfl
  | none =>
    have := slot_none h
    rw [List.find?_eq_none] at this
    exact absurd (by simp) (this f hm)

theorem beyond_of (d k : SDef) (rest : List Fld) (hu : d.union = false) (hku : k.union = false)
    (hp : d.packed = k.packed) (hf : d.fields = k.fields ++ rest) (hs : Sized d.fields)
    (ht : sizeOf k ≤ extent (places k)) : Beyond d k := by
  intro n p hn hd
  rw [slot_append d k rest hu hku hp hf, hn] at hd
  simp only [Option.none_or] at hd
  cases hq : (layout d.packed (stop d.packed 0 k.fields) rest).find? (fun p => p.1.name == n) with
  | none => simp [hq] at hd
  | some q =>
    simp only [hq, Option.map_some, Option.some.injEq] at hd
    subst hd
    have h1 : Sized rest := fun g hg => hs g (by rw [hf]; simp [hg])
    have h2 : Sized k.fields := fun g hg => hs g (by rw [hf]; simp [hg])
    have h3 := (layout_range _ _ rest h1 q (List.mem_of_find?_eq_some hq)).1
    have h4 : extent (places k) ≤ stop d.packed 0 k.fields := by
      apply extent_le
      intro t ht
      unfold places at ht
      rw [hku, ← hp] at ht
      exact (layout_range _ _ k.fields h2 t ht).2
    simp only
    omega

end Verif.Mixin
