import Verif.Undef.Model
import Verif.CJson.Props

/-!
# Undefined functions are reported

C175.  `reported_partial`: in a program without C headers and without imports from a directory `std`, a call without named arguments of a function whose
name does not begin with `_z_` or `_Z` is reported exactly if the function is neither defined, nor declared `extern`, nor listed in a configuration file;
and nothing is read or written outside the tables.  Violated for the others: `interop_violated`, `named_violated`.
-/

namespace Verif.Undef

open Verif.CJson (Item Items Members parse find)

/-! ## Names declared `extern` -/

/-- The table holds exactly these names, and has room up to the next multiple of 64. -/
structure Holds (e : Ext) (l : List (List Nat)) : Prop where
  count : e.count = l.length
  text : l.map some <+: e.buf
  room : e.count % 64 ≠ 0 → ∃ k, e.buf.length = 64 * k ∧ e.count ≤ 64 * k

theorem search_ok (x : List Nat) : ∀ (l pre : List (List Nat)) (m : Mem (List Nat)), (pre ++ l).map some <+: m →
    search m x pre.length l.length = .ok (decide (x ∈ l))
  | [], _, _, _ => rfl
  | y :: l, pre, m, h => by
      have hl : Mem.load m pre.length = .ok y := by
        obtain ⟨r, rfl⟩ := h
        rw [Mem.load_ok_iff]
        simp
      simp only [List.length_cons, search, hl, Res.bind]
      by_cases hy : y = x
      · simp [hy]
      · have := search_ok x l (pre ++ [y]) m (by simpa using h)
        rw [List.length_append, List.length_singleton] at this
        rw [if_neg hy, this]
        have hx : x ≠ y := fun e => hy e.symm
        simp [hx]

theorem isExtern_ok {e : Ext} {l : List (List Nat)} (h : Holds e l) (x : List Nat) : isExtern e x = .ok (decide (x ∈ l)) := by
  unfold isExtern
  rw [h.count]
  exact search_ok x l [] e.buf (by simpa using h.text)

theorem store_end {α : Type} (l : List α) (m : Mem α) (x : α) (h : l.map some <+: m) (hl : l.length < m.length) :
    ∃ m', Mem.store m l.length x = .ok m' ∧ m'.length = m.length ∧ (l ++ [x]).map some <+: m' := by
  obtain ⟨r, rfl⟩ := h
  cases r with
  | nil => simp at hl
  | cons y r =>
      refine ⟨(l ++ [x]).map some ++ r, ?_, by simp, ⟨r, rfl⟩⟩
      unfold Mem.store
      rw [if_pos hl, List.set_append_right _ _ (by simp)]
      simp

theorem realloc_keeps {α : Type} {m xs : Mem α} {n : Nat} (h : xs <+: m) (hn : xs.length ≤ n) : xs <+: Mem.realloc m n := by
  obtain ⟨r, rfl⟩ := h
  unfold Mem.realloc
  rw [List.take_append, List.take_of_length_le hn, List.append_assoc]
  exact ⟨_, rfl⟩

theorem realloc_size {α : Type} (m : Mem α) (n : Nat) : (Mem.realloc m n).length = n := by
  unfold Mem.realloc
  simp only [List.length_append, List.length_take, List.length_replicate]
  omega

theorem register_ok {e : Ext} {l : List (List Nat)} (h : Holds e l) (x : List Nat) :
    ∃ e', register e x = .ok e' ∧ Holds e' (if x ∈ l then l else l ++ [x]) := by
  have hs := search_ok x l [] e.buf (by simpa using h.text)
  have hc := h.count
  rw [List.length_nil] at hs
  unfold register
  rw [hc, hs]
  simp only [Res.bind]
  by_cases hx : x ∈ l
  · simp only [hx, decide_true, if_true]
    exact ⟨e, rfl, h⟩
  simp only [hx, decide_false, Bool.false_eq_true, if_false]
  have hm : ∃ m, (if l.length = 0 then Mem.malloc 64 else if l.length % 64 = 0 then Mem.realloc e.buf (l.length + 64) else e.buf) = m ∧
      l.map some <+: m ∧ l.length < m.length ∧ ∃ k, m.length = 64 * k := by
    by_cases h0 : l.length = 0
    · rw [if_pos h0]
      have : l = [] := List.length_eq_zero_iff.mp h0
      subst this
      have h64 : (Mem.malloc 64 : Mem (List Nat)).length = 64 := List.length_replicate
      exact ⟨_, rfl, by simp, by rw [h64]; decide, 1, h64⟩
    rw [if_neg h0]
    by_cases h1 : l.length % 64 = 0
    · rw [if_pos h1]
      refine ⟨_, rfl, realloc_keeps h.text (by rw [List.length_map]; omega), by rw [realloc_size]; omega, l.length / 64 + 1, ?_⟩
      rw [realloc_size]
      omega
    · rw [if_neg h1]
      obtain ⟨k, hk, hk2⟩ := h.room (by rw [hc]; exact h1)
      exact ⟨_, rfl, h.text, by omega, k, hk⟩
  obtain ⟨m, e1, e2, e3, k, e4⟩ := hm
  rw [e1]
  obtain ⟨m', f1, f2, f3⟩ := store_end l m x e2 e3
  simp only [f1]
  refine ⟨_, rfl, by simp, f3, fun _ => ⟨k, f2.trans e4, ?_⟩⟩
  show l.length + 1 ≤ 64 * k
  omega

theorem registerAll_ok : ∀ (xs : List (List Nat)) (e : Ext) (l : List (List Nat)), Holds e l →
    ∃ e' l', registerAll e xs = .ok e' ∧ Holds e' l' ∧ ∀ x, x ∈ l' ↔ x ∈ l ∨ x ∈ xs
  | [], e, l, h => ⟨e, l, rfl, h, fun x => by simp⟩
  | y :: xs, e, l, h => by
      obtain ⟨e1, a1, a2⟩ := register_ok h y
      obtain ⟨e2, l2, b1, b2, b3⟩ := registerAll_ok xs e1 _ a2
      refine ⟨e2, l2, by simp only [registerAll, a1, Res.bind, b1], b2, fun x => ?_⟩
      rw [b3 x, List.mem_cons]
      by_cases hy : y ∈ l
      · rw [if_pos hy]
        constructor
        · rintro (h | h)
          · exact .inl h
          · exact .inr (.inr h)
        · rintro (h | h | h)
          · exact .inl h
          · exact .inl (h ▸ hy)
          · exact .inr h
      · rw [if_neg hy, List.mem_append, List.mem_singleton, or_assoc]

/-! ## The list -/

/-- A table with these names. -/
def Is (w : Table) (l : List (List Nat)) : Prop :=
  (w = none ∧ l = []) ∨ ∃ m, w = some m ∧ (l.map some ++ [none]).map some <+: m

theorem countW_ok : ∀ (l : List (List Nat)) (r : Mem (Option (List Nat))), countW ((l.map some ++ [none]).map some ++ r) = .ok l.length
  | [], _ => rfl
  | x :: l, r => by
      simp only [List.map_cons, List.cons_append, countW, countW_ok l r, Res.bind, List.length_cons]

theorem listed_ok (x : List Nat) : ∀ (l : List (List Nat)) (r : Mem (Option (List Nat))),
    listed x ((l.map some ++ [none]).map some ++ r) = .ok (decide (x ∈ l))
  | [], _ => by simp [listed]
  | y :: l, r => by
      simp only [List.map_cons, List.cons_append, listed]
      by_cases hy : y = x
      · simp [hy]
      · have hx : x ≠ y := fun e => hy e.symm
        rw [if_neg hy, listed_ok x l r]
        simp [hx]

/-- The names in an array. -/
def names : Items → List (List Nat)
  | .nil => []
  | .cons (.str s) l => s :: names l
  | .cons _ l => names l

theorem names_le : ∀ l : Items, (names l).length ≤ size l
  | .nil => Nat.le_refl _
  | .cons v l => by
      have := names_le l
      cases v <;> simp only [names, size, List.length_cons] <;> omega

theorem mem_names (x : List Nat) : ∀ l : Items, x ∈ names l ↔ .str x ∈ Spec.items l
  | .nil => by simp [names, Spec.items]
  | .cons v l => by
      have := mem_names x l
      cases v <;> simp [names, Spec.items, this]

theorem fillW_ok : ∀ (l : Items) (a : List (List Nat)) (m : Mem (Option (List Nat))), (a.map some).map some <+: m →
    a.length + size l + 1 ≤ m.length → ∃ m', fillW m a.length l = .ok m' ∧ (((a ++ names l).map some) ++ [none]).map some <+: m'
  | .nil, a, m, h, hl => by
      simp only [size] at hl
      obtain ⟨m', e1, e2, e3⟩ := store_end (a.map some) m none h (by rw [List.length_map]; omega)
      rw [List.length_map] at e1
      exact ⟨m', e1, by simpa [names] using e3⟩
  | .cons v l, a, m, h, hl => by
      simp only [size] at hl
      have skip : names (.cons v l) = names l → fillW m a.length (.cons v l) = fillW m a.length l →
          ∃ m', fillW m a.length (.cons v l) = .ok m' ∧ (((a ++ names (.cons v l)).map some) ++ [none]).map some <+: m' := by
        intro h1 h2
        rw [h1, h2]
        exact fillW_ok l a m h (by omega)
      cases v with
      | str s =>
          obtain ⟨m', e1, e2, e3⟩ := store_end (a.map some) m (some s) h (by rw [List.length_map]; omega)
          rw [List.length_map] at e1
          obtain ⟨m2, f1, f2⟩ := fillW_ok l (a ++ [s]) m' (by simpa using e3) (by rw [List.length_append, List.length_singleton]; omega)
          rw [List.length_append, List.length_singleton] at f1
          exact ⟨m2, by simp only [fillW, e1, Res.bind, f1], by simpa [names] using f2⟩
      | null => exact skip rfl rfl
      | fls => exact skip rfl rfl
      | tru => exact skip rfl rfl
      | num i => exact skip rfl rfl
      | real t => exact skip rfl rfl
      | arr l' => exact skip rfl rfl
      | obj m' => exact skip rfl rfl

theorem append_ok {w : Table} {a : List (List Nat)} (h : Is w a) (l : Items) : ∃ w', append w l = .ok w' ∧ Is w' (a ++ names l) := by
  unfold append
  by_cases h0 : size l = 0
  · rw [if_pos h0]
    have : names l = [] := List.length_eq_zero_iff.mp (by have := names_le l; omega)
    rw [this, List.append_nil]
    exact ⟨w, rfl, h⟩
  rw [if_neg h0]
  have hc : countT w = Res.ok a.length ∧ (a.map some).map some <+: w.getD [] := by
    rcases h with ⟨rfl, rfl⟩ | ⟨m, rfl, r, rfl⟩
    · exact ⟨rfl, List.nil_prefix⟩
    · refine ⟨countW_ok a r, some none :: r, ?_⟩
      simp
  rw [hc.1]
  simp only [Res.bind]
  obtain ⟨m', e1, e2⟩ := fillW_ok l a (Mem.realloc (w.getD []) (a.length + size l + 1))
    (realloc_keeps hc.2 (by simp only [List.length_map]; omega)) (by rw [realloc_size]; exact Nat.le_refl _)
  simp only [e1]
  exact ⟨_, rfl, .inr ⟨m', rfl, e2⟩⟩

/-- The names in a configuration file. -/
def fileNames : Option (List Nat) → List (List Nat)
  | none => []
  | some text =>
      match parse text with
      | some (.obj m) =>
          match find true key m with
          | some (.arr l) => names l
          | _ => []
      | _ => []

/-- Whether it counts as loaded. -/
def loads : Option (List Nat) → Bool
  | none => false
  | some text => (parse text).isSome

theorem load_ok {w : Table} {a : List (List Nat)} (h : Is w a) (f : Option (List Nat)) :
    ∃ w', load w f = .ok (w', loads f) ∧ Is w' (a ++ fileNames f) := by
  cases f with
  | none => exact ⟨w, rfl, by simpa [fileNames] using h⟩
  | some text =>
      simp only [load, loads, fileNames]
      cases hp : parse text with
      | none => exact ⟨w, rfl, by simpa using h⟩
      | some v =>
          cases v with
          | obj m =>
              cases hf : find true key m with
              | none => exact ⟨w, by simp [hf], by simpa [hf] using h⟩
              | some u =>
                  cases u with
                  | arr l =>
                      obtain ⟨w', e1, e2⟩ := append_ok h l
                      exact ⟨w', by simp [hf, e1, Res.bind], by simpa [hf] using e2⟩
                  | null => exact ⟨w, by simp [hf], by simpa [hf] using h⟩
                  | fls => exact ⟨w, by simp [hf], by simpa [hf] using h⟩
                  | tru => exact ⟨w, by simp [hf], by simpa [hf] using h⟩
                  | num i => exact ⟨w, by simp [hf], by simpa [hf] using h⟩
                  | real t => exact ⟨w, by simp [hf], by simpa [hf] using h⟩
                  | str s => exact ⟨w, by simp [hf], by simpa [hf] using h⟩
                  | obj m' => exact ⟨w, by simp [hf], by simpa [hf] using h⟩
          | null => exact ⟨w, rfl, by simpa using h⟩
          | fls => exact ⟨w, rfl, by simpa using h⟩
          | tru => exact ⟨w, rfl, by simpa using h⟩
          | num i => exact ⟨w, rfl, by simpa using h⟩
          | real t => exact ⟨w, rfl, by simpa using h⟩
          | str s => exact ⟨w, rfl, by simpa using h⟩
          | arr l => exact ⟨w, rfl, by simpa using h⟩

theorem find_first (k : List Nat) : ∀ m : Members, find true k m = ((CJson.Spec.list m).find? (fun p => p.1 == k)).map (·.2)
  | .nil => rfl
  | .cons k' v m => by
      simp only [find, if_true, CJson.Spec.list, List.find?_cons]
      by_cases h : k = k'
      · have : (k' == k) = true := by simpa using h.symm
        rw [if_pos h, this]
        rfl
      · have : (k' == k) = false := by simpa using fun e => h (Eq.symm e)
        rw [if_neg h, this]
        exact find_first k m

theorem fileNames_spec (x : List Nat) (f : Option (List Nat)) : x ∈ fileNames f ↔ ∃ text, f = some text ∧ Spec.Lists text x := by
  constructor
  · intro h
    cases f with
    | none => simp [fileNames] at h
    | some text =>
        refine ⟨text, rfl, ?_⟩
        simp only [fileNames] at h
        split at h
        · rename_i m hp
          split at h
          · rename_i l hf
            exact ⟨m, l, hp, by rw [← find_first]; exact hf, (mem_names x l).mp h⟩
          · simp at h
        · simp at h
  · rintro ⟨text, rfl, m, l, hp, hf, hx⟩
    rw [← find_first] at hf
    simp only [fileNames, hp, hf]
    exact (mem_names x l).mpr hx

/-- C175: after all configuration files the list has exactly the names in the files that count. -/
theorem loadAll_ok (f : Files) : ∃ w l, loadAll f = .ok w ∧ Is w l ∧ ∀ x, x ∈ l ↔ ∃ text, Spec.Counts f text ∧ Spec.Lists text x := by
  obtain ⟨w1, a1, a2⟩ := load_ok (w := none) (a := []) (.inl ⟨rfl, rfl⟩) f.root
  have hb : ∃ w2 b, (if loads f.root then Res.ok (w1, loads f.root) else load w1 f.share) = .ok (w2, b) ∧
      Is w2 (fileNames f.root ++ if loads f.root then [] else fileNames f.share) := by
    rw [List.nil_append] at a2
    cases hl : loads f.root
    · obtain ⟨w2, b1, b2⟩ := load_ok a2 f.share
      exact ⟨w2, _, b1, by simpa using b2⟩
    · exact ⟨w1, _, rfl, by simpa using a2⟩
  obtain ⟨w2, b, b1, b2⟩ := hb
  obtain ⟨w3, c1, c2⟩ := load_ok b2 f.hidden
  obtain ⟨w4, d1, d2⟩ := load_ok c2 f.visible
  refine ⟨w4, _, by simp only [loadAll, a1, Res.bind, b1, c1, d1], d2, fun x => ?_⟩
  simp only [List.mem_append, fileNames_spec, Spec.Counts]
  have hshare : x ∈ (if loads f.root then [] else fileNames f.share) ↔
      ∃ text, (f.share = some text ∧ ∀ t, f.root = some t → parse t = none) ∧ Spec.Lists text x := by
    cases hr : f.root with
    | none =>
        simp only [loads, Bool.false_eq_true, if_false, fileNames_spec]
        constructor
        · rintro ⟨t, h1, h2⟩
          exact ⟨t, ⟨h1, fun _ h => by simp at h⟩, h2⟩
        · rintro ⟨t, ⟨h1, _⟩, h2⟩
          exact ⟨t, h1, h2⟩
    | some t0 =>
        rcases Option.eq_none_or_eq_some (parse t0) with hp | ⟨v, hp⟩
        · rw [if_neg (by simp [loads, hp]), fileNames_spec]
          constructor
          · rintro ⟨t, h1, h2⟩
            refine ⟨t, ⟨h1, fun t' h => ?_⟩, h2⟩
            injection h with h
            rw [← h]; exact hp
          · rintro ⟨t, ⟨h1, _⟩, h2⟩
            exact ⟨t, h1, h2⟩
        · rw [if_pos (by simp [loads, hp])]
          constructor
          · intro h; simp at h
          · rintro ⟨t, ⟨_, h⟩, _⟩
            have := h t0 rfl
            rw [hp] at this
            simp at this
  rw [hshare]
  constructor
  · rintro (((⟨t, h1, h2⟩ | ⟨t, h1, h2⟩) | ⟨t, h1, h2⟩) | ⟨t, h1, h2⟩)
    · exact ⟨t, .inl h1, h2⟩
    · exact ⟨t, .inr (.inl h1), h2⟩
    · exact ⟨t, .inr (.inr (.inl h1)), h2⟩
    · exact ⟨t, .inr (.inr (.inr h1)), h2⟩
  · rintro ⟨t, h1 | h1 | h1 | h1, h2⟩
    · exact .inl (.inl (.inl ⟨t, h1, h2⟩))
    · exact .inl (.inl (.inr ⟨t, h1, h2⟩))
    · exact .inl (.inr ⟨t, h1, h2⟩)
    · exact .inr ⟨t, h1, h2⟩

/-! ## The report -/

theorem hasStd_spec : ∀ p : List Nat, hasStd p = true ↔ Spec.StdPath p
  | [] => by
      simp only [hasStd, Bool.false_eq_true, false_iff]
      rintro ⟨a, b, h⟩
      have := congrArg List.length h
      simp only [List.length_nil, List.length_append, List.length_cons] at this
      omega
  | c :: t => by
      simp only [hasStd, Bool.or_eq_true, hasStd_spec t, beq_iff_eq]
      constructor
      · rintro (h | ⟨a, b, h⟩)
        · refine ⟨[], (c :: t).drop 5, ?_⟩
          rw [List.nil_append, ← h, List.take_append_drop]
        · exact ⟨c :: a, b, by rw [h]; rfl⟩
      · rintro ⟨a, b, h⟩
        cases a with
        | nil => left; rw [h]; rfl
        | cons d a =>
            right
            simp only [List.cons_append, List.cons.injEq] at h
            exact ⟨a, b, h.2⟩

/-- What `run` does, for all programs: it never leaves its tables. -/
theorem run_ok (funcs structs externs : List (List Nat)) (headers : List Bool) (files : List (List Nat)) (f : Files) (named : Bool) (x : List Nat) :
    ∃ b, run funcs structs externs headers files f named x = .ok b ∧
      (b = true ↔ named = false ∧ true ∉ headers ∧ (∀ p ∈ files, ¬ Spec.StdPath p) ∧ ¬ [95, 122, 95] <+: x ∧ ¬ [95, 90] <+: x ∧
        ¬ Spec.Allowed funcs structs externs f x) := by
  obtain ⟨w, l, a1, a2, a3⟩ := loadAll_ok f
  obtain ⟨e, le, b1, b2, b3⟩ := registerAll_ok externs ⟨[], 0⟩ [] ⟨rfl, by simp, fun h => absurd rfl h⟩
  simp only [run, a1, b1, Res.bind]
  unfold warns
  cases named with
  | true => exact ⟨false, rfl, by simp⟩
  | false =>
      simp only [Bool.false_eq_true, if_false]
      by_cases hd : (funcs.contains x || structs.contains x) = true
      · rw [if_pos hd]
        refine ⟨false, rfl, by simp, ?_⟩
        rintro ⟨_, _, _, _, _, h⟩
        exfalso
        apply h
        simp only [Bool.or_eq_true, List.contains_iff_mem] at hd
        rcases hd with h | h
        · exact .inl h
        · exact .inr (.inl h)
      · rw [if_neg hd]
        have hw : listedT x w = Res.ok (decide (x ∈ l)) := by
          rcases a2 with ⟨rfl, rfl⟩ | ⟨m, rfl, r, rfl⟩
          · simp [listedT]
          · exact listed_ok x l r
        rw [isExtern_ok b2, hw]
        refine ⟨_, rfl, ?_⟩
        simp only [Bool.or_eq_true, List.contains_iff_mem, not_or] at hd
        have t3 : (x.take 3 == [95, 122, 95]) = true ↔ [95, 122, 95] <+: x := by
          rw [beq_iff_eq, List.prefix_iff_eq_take]
          exact eq_comm
        have t2 : (x.take 2 == [95, 90]) = true ↔ [95, 90] <+: x := by
          rw [beq_iff_eq, List.prefix_iff_eq_take]
          exact eq_comm
        have th : headers.any id = true ↔ true ∈ headers := by simp
        have tf : files.any hasStd = true ↔ ∃ p ∈ files, Spec.StdPath p := by
          simp [List.any_eq_true, hasStd_spec]
        have te : x ∈ le ↔ x ∈ externs := by simpa using b3 x
        simp only [Bool.and_eq_true, Bool.not_eq_true', ← Bool.not_eq_true, Bool.or_eq_true, decide_eq_true_eq, t3, t2, th, tf, te, a3,
          Spec.Allowed, not_or]
        constructor
        · rintro ⟨⟨⟨⟨h1, h2⟩, h3, h4⟩, h5⟩, h6⟩
          exact ⟨trivial, h1, fun p hp hs => h2 ⟨p, hp, hs⟩, h3, h4, hd.1, hd.2, h5, h6⟩
        · rintro ⟨_, h1, h2, h3, h4, _, _, h5, h6⟩
          exact ⟨⟨⟨⟨h1, fun ⟨p, hp, hs⟩ => h2 p hp hs⟩, h3, h4⟩, h5⟩, h6⟩

/-- C175, partly: a call of an unknown function is reported, and only such a call, in programs without C headers and `std`. -/
theorem reported_partial (funcs structs externs : List (List Nat)) (headers : List Bool) (files : List (List Nat)) (f : Files) (x : List Nat)
    (hh : true ∉ headers) (hf : ∀ p ∈ files, ¬ Spec.StdPath p) (hx : ¬ [95, 122, 95] <+: x ∧ ¬ [95, 90] <+: x) :
    ∃ b, run funcs structs externs headers files f false x = .ok b ∧ (b = true ↔ ¬ Spec.Allowed funcs structs externs f x) := by
  obtain ⟨b, h1, h2⟩ := run_ok funcs structs externs headers files f false x
  exact ⟨b, h1, h2.trans ⟨fun h => h.2.2.2.2.2, fun h => ⟨rfl, hh, hf, hx.1, hx.2, h⟩⟩⟩

/-- C175: what may be called is never reported, in any program. -/
theorem allowed_not_reported (funcs structs externs : List (List Nat)) (headers : List Bool) (files : List (List Nat)) (f : Files) (named : Bool)
    (x : List Nat) (h : Spec.Allowed funcs structs externs f x) : run funcs structs externs headers files f named x = .ok false := by
  obtain ⟨b, h1, h2⟩ := run_ok funcs structs externs headers files f named x
  rw [h1]
  cases b
  · rfl
  · exact absurd h (h2.mp rfl).2.2.2.2.2

/-- C175, violated: one import of a path with `/std/` in it, also one of the program's own, and no unknown function is reported any more. -/
theorem interop_violated (funcs structs externs : List (List Nat)) (headers : List Bool) (files : List (List Nat)) (f : Files) (named : Bool)
    (x a b : List Nat) : run funcs structs externs headers ((a ++ [47, 115, 116, 100, 47] ++ b) :: files) f named x = .ok false := by
  obtain ⟨r, h1, h2⟩ := run_ok funcs structs externs headers ((a ++ [47, 115, 116, 100, 47] ++ b) :: files) f named x
  rw [h1]
  cases r
  · rfl
  · exact absurd ⟨a, b, rfl⟩ ((h2.mp rfl).2.2.1 _ (by simp))

/-- C175, violated: a call with named arguments is never reported. -/
theorem named_violated (funcs structs externs : List (List Nat)) (headers : List Bool) (files : List (List Nat)) (f : Files) (x : List Nat) :
    run funcs structs externs headers files f true x = .ok false := by
  obtain ⟨r, h1, h2⟩ := run_ok funcs structs externs headers files f true x
  rw [h1]
  cases r
  · rfl
  · exact absurd (h2.mp rfl).1 (by simp)

/-- `{"c_functions":["f",1,"g"]}` lists `g`, and `h` is reported. -/
theorem sample : Spec.Lists [123, 34, 99, 95, 102, 117, 110, 99, 116, 105, 111, 110, 115, 34, 58, 91, 34, 102, 34, 44, 49, 44, 34, 103, 34, 93, 125] [103] ∧
    run [] [] [] [] [] ⟨none, none, none, some
      [123, 34, 99, 95, 102, 117, 110, 99, 116, 105, 111, 110, 115, 34, 58, 91, 34, 102, 34, 44, 49, 44, 34, 103, 34, 93, 125]⟩ false [104] = .ok true := by
  constructor
  · refine ⟨.cons key (.arr (.cons (.str [102]) (.cons (.num 1) (.cons (.str [103]) .nil)))) .nil, _, ?_, rfl, by simp [Spec.items]⟩
    rfl
  · rfl

end Verif.Undef
