import Verif.GenScope.Model

/-! # Type parameters are in force in their declaration only (C167) -/

namespace Verif.GenScope

open Generics (Name)
open Spec

/-- With room, registering keeps what was there and adds what is new. -/
theorem registerAll_ok : ∀ (ns known : List Name), known.length + ns.length ≤ 1024 →
    ∃ added, registerAll ⟨known, 0⟩ ns = .ok ⟨known ++ added, 0⟩ ∧ Same (known ++ added) (known ++ ns) ∧ added.length ≤ ns.length ∧
      (ns.Nodup → (∀ n ∈ ns, n ∉ known) → added = ns) := by
  intro ns
  induction ns with
  | nil => intro known _; exact ⟨[], by simp [registerAll], fun n => Iff.rfl, by simp, fun _ _ => rfl⟩
  | cons n ns ih =>
    intro known h
    simp only [List.length_cons] at h
    by_cases hk : known.contains n = true
    · have hreg : register ⟨known, 0⟩ n = .ok ⟨known, 0⟩ := by
        unfold register
        rw [if_pos ⟨rfl, hk⟩]
      obtain ⟨added, h1, h2, h3, h4⟩ := ih known (by omega)
      refine ⟨added, ?_, fun m => ?_, by simp; omega, fun _ hd => absurd (List.contains_iff_mem.mp hk) (hd n (by simp))⟩
      · rw [registerAll, hreg]; exact h1
      · rw [h2 m]
        have := List.contains_iff_mem.mp hk
        simp only [List.mem_append, List.mem_cons]
        constructor
        · rintro (h | h)
          · exact .inl h
          · exact .inr (.inr h)
        · rintro (h | rfl | h)
          · exact .inl h
          · exact .inl this
          · exact .inr h
    · have hreg : register ⟨known, 0⟩ n = .ok ⟨known ++ [n], 0⟩ := by
        unfold register
        rw [if_neg fun x => hk x.2, if_neg (by simp), if_neg (by simp; omega)]
      obtain ⟨added, h1, h2, h3, h4⟩ := ih (known ++ [n]) (by simp; omega)
      refine ⟨n :: added, ?_, fun m => ?_, by simp; omega, fun hnd hd => ?_⟩
      · rw [registerAll, hreg]
        simpa using h1
      · have := h2 m
        simpa using this
      · rw [List.nodup_cons] at hnd
        rw [h4 hnd.2 fun m hm hmem => ?_]
        rcases List.mem_append.mp hmem with hmem | hmem
        · exact hd m (by simp [hm]) hmem
        · simp at hmem; subst hmem; exact hnd.1 hm

theorem functions_ok (known : List Name) : ∀ (meths : List (List Name)), (∀ m ∈ meths, known.length + m.length ≤ 1024) →
    ∃ ks, functions ⟨known, 0⟩ meths = .ok ks ∧ ks.length = meths.length ∧ ∀ (j : Nat) (k m : List Name), ks[j]? = some k → meths[j]? = some m → Same k (known ++ m) := by
  intro meths
  induction meths with
  | nil => intro _; exact ⟨[], rfl, rfl, by simp⟩
  | cons m meths ih =>
    intro h
    obtain ⟨added, h1, h2, _, _⟩ := registerAll_ok m known (h m (by simp))
    obtain ⟨ks, h3, h4, h5⟩ := ih fun x hx => h x (by simp [hx])
    refine ⟨(known ++ added) :: ks, ?_, by simp [h4], fun j k x hk hx => ?_⟩
    · rw [functions, function, h1]
      show (do let b ← functions ⟨known, 0⟩ meths; Res.ok ((known ++ added) :: b)) = _
      rw [h3]; rfl
    · cases j with
      | zero => simp at hk hx; subst hk; subst hx; exact h2
      | succ j => exact h5 j k x (by simpa using hk) (by simpa using hx)

theorem drop_all (ps : List Name) : drop ⟨[] ++ ps, 0⟩ ps.length = ⟨[], 0⟩ := by
  unfold drop
  simp

/-- In the bodies of a declaration exactly its parameters are known, and none behind it. -/
theorem declare_scope {d : Decl} (hd : Fine d) : ∃ ks, declare ⟨[], 0⟩ d = .ok (⟨[], 0⟩, ks) ∧ ks.length = (scopes d).length ∧
    ∀ (j : Nat) (k s : List Name), ks[j]? = some k → (scopes d)[j]? = some s → Same k s := by
  have one : ∀ (k ps : List Name), Same k ps → ∀ (j : Nat) (x s : List Name), [k][j]? = some x → [ps][j]? = some s → Same x s := by
    intro k ps h j x s h1 h2
    cases j with
    | zero => simp at h1 h2; subst h1; subst h2; exact h
    | succ j => simp at h1
  cases d with
  | fn ps =>
    have hl : ps.length ≤ 1000 := hd
    obtain ⟨added, h1, h2, _, _⟩ := registerAll_ok ps [] (by simp; omega)
    refine ⟨[[] ++ added], ?_, rfl, one _ _ (by simpa using h2)⟩
    simp only [declare, function, h1]; rfl
  | struct ps forward =>
    obtain ⟨h0, rfl, hl⟩ : ps.Nodup ∧ forward = false ∧ ps.length ≤ 1000 := hd
    obtain ⟨added, h1, h2, _, h4⟩ := registerAll_ok ps [] (by simp; omega)
    obtain rfl := h4 h0 (by simp)
    refine ⟨[[] ++ added], ?_, rfl, one _ _ (by simpa using h2)⟩
    simp only [declare, h1]
    show Res.ok (drop ⟨[] ++ added, 0⟩ added.length, _) = _
    rw [drop_all]
  | trait ps =>
    obtain ⟨h0, hl⟩ : ps.Nodup ∧ ps.length ≤ 1000 := hd
    obtain ⟨added, h1, h2, _, h4⟩ := registerAll_ok ps [] (by simp; omega)
    obtain rfl := h4 h0 (by simp)
    refine ⟨[[] ++ added], ?_, rfl, one _ _ (by simpa using h2)⟩
    simp only [declare, h1]
    show Res.ok (drop ⟨[] ++ added, 0⟩ added.length, _) = _
    rw [drop_all]
  | enum p =>
    have hlen : p.toList.length ≤ 1 := by cases p <;> simp
    have hnd : p.toList.Nodup := by cases p <;> simp
    obtain ⟨added, h1, h2, _, h4⟩ := registerAll_ok p.toList [] (by simp; omega)
    have h5 := h4 hnd (by simp)
    rw [h5] at h1 h2
    refine ⟨[[] ++ p.toList], ?_, rfl, one _ _ (by simpa using h2)⟩
    simp only [declare, h1]
    show Res.ok (drop ⟨[] ++ p.toList, 0⟩ p.toList.length, _) = _
    rw [drop_all]
  | impl p target meths =>
    obtain ⟨h0, hl⟩ : (p.toList ++ target.toList).Nodup ∧ ∀ m ∈ meths, m.length ≤ 1000 := hd
    have hp : p.toList.length ≤ 1 := by cases p <;> simp
    have ht : target.toList.length ≤ 1 := by cases target <;> simp
    obtain ⟨a1, h1, h2, _, h4⟩ := registerAll_ok p.toList [] (by simp; omega)
    have h5 := h4 (List.nodup_append.mp h0).1 (by simp)
    rw [h5] at h1 h2
    rw [List.nil_append] at h1
    obtain ⟨a2, g1, g2, _, g4⟩ := registerAll_ok target.toList p.toList (by omega)
    have g5 := g4 (List.nodup_append.mp h0).2.1 (fun n hn hm => (List.nodup_append.mp h0).2.2 n hm n hn rfl)
    rw [g5] at g1 g2
    obtain ⟨ks, f1, f2, f3⟩ := functions_ok (p.toList ++ target.toList) meths (fun m hm => by have := hl m hm; simp; omega)
    refine ⟨ks, ?_, by simp [scopes, f2], fun j k s hk hs => ?_⟩
    · simp only [declare, h1]
      show (do
        let st' ← registerAll ⟨p.toList, 0⟩ target.toList
        let ks ← functions st' meths
        Res.ok (drop (drop st' p.toList.length) target.toList.length, ks)) = _
      rw [g1]
      show (do
        let ks ← functions ⟨p.toList ++ target.toList, 0⟩ meths
        Res.ok (drop (drop ⟨p.toList ++ target.toList, 0⟩ p.toList.length) target.toList.length, ks)) = _
      rw [f1]
      show Res.ok (drop (drop ⟨p.toList ++ target.toList, 0⟩ p.toList.length) target.toList.length, ks) = _
      have : drop (drop ⟨p.toList ++ target.toList, 0⟩ p.toList.length) target.toList.length = ⟨[], 0⟩ := by
        unfold drop
        simp only [List.length_take, List.length_append]
        refine St.mk.injEq .. |>.mpr ⟨?_, by omega⟩
        rw [List.take_eq_nil_iff]
        left; omega
      rw [this]
    · simp only [scopes, List.getElem?_map, Option.map_eq_some_iff] at hs
      obtain ⟨m, hm, rfl⟩ := hs
      exact f3 j k m hk hm

/-- C167 (partial): in the bodies of every declaration exactly its own type parameters (and those of the block around it) are in force, however many
declarations came before.  Missing: declarations without a body, parameters of the same name (`forward_violated`, `twice_violated`). -/
theorem scopes_partial : ∀ (D : List Decl), (∀ d ∈ D, Fine d) → ∃ ks, run ⟨[], 0⟩ D = .ok (⟨[], 0⟩, ks) ∧ ks.length = D.length ∧
    ∀ (i : Nat) (k : List (List Name)) (d : Decl), ks[i]? = some k → D[i]? = some d → k.length = (scopes d).length ∧ ∀ (j : Nat) (x s : List Name), k[j]? = some x → (scopes d)[j]? = some s → Same x s := by
  intro D
  induction D with
  | nil => intro _; exact ⟨[], rfl, rfl, by simp⟩
  | cons d D ih =>
    intro h
    obtain ⟨k, h1, h2, h3⟩ := declare_scope (h d (by simp))
    obtain ⟨ks, h4, h5, h6⟩ := ih fun x hx => h x (by simp [hx])
    refine ⟨k :: ks, ?_, by simp [h5], fun i x e hx he => ?_⟩
    · rw [run, h1]
      show (do let (st, ks) ← run ⟨[], 0⟩ D; Res.ok (st, k :: ks)) = _
      rw [h4]; rfl
    · cases i with
      | zero => simp at hx he; subst hx; subst he; exact ⟨h2, h3⟩
      | succ i => exact h6 i x e (by simpa using hx) (by simpa using he)

/-- `struct List<T> { … } impl List<T> { fn map<U>(…) … } impl Show for List<T> { … } fn f<T, U>() {}` meets the hypotheses. -/
def sample : List Decl := [.struct [['T']] false, .impl (some ['T']) none [[], [['U']]], .impl none (some ['T']) [[]], .fn [['T'], ['U']]]

example : (∀ d ∈ sample, Fine d) ∧ run ⟨[], 0⟩ sample = .ok (⟨[], 0⟩, [[[['T']]], [[['T']], [['T'], ['U']]], [[['T']]], [[['T'], ['U']]]]) := by
  constructor
  · intro d hd
    simp only [sample, List.mem_cons, List.not_mem_nil, or_false] at hd
    rcases hd with rfl | rfl | rfl | rfl
    · exact ⟨by decide, rfl, by decide⟩
    · exact ⟨by decide, by decide⟩
    · exact ⟨by decide, by decide⟩
    · show _ ≤ 1000; decide
  · rfl

/-- `struct List<T>;` — `T` is known in all that follows, and not taken for a type in functions without parameters. -/
theorem forward_violated : run ⟨[], 0⟩ [.struct [['T']] true, .fn []] = .ok (⟨[['T']], 0⟩, [[[['T']]], [[['T']]]]) := rfl

/-- `impl Into<T> for Box<T> {}` — the count goes below zero, and the next type parameter is written before the array. -/
theorem twice_violated (p : Name) : run ⟨[], 0⟩ [.impl (some ['T']) (some ['T']) []] = .ok (⟨[], 1⟩, [[]]) ∧
    run ⟨[], 0⟩ [.impl (some ['T']) (some ['T']) [], .struct [p] false] = .ub := ⟨rfl, rfl⟩

/-- The same for a struct with two parameters of the same name. -/
theorem same_name_violated (p : Name) : run ⟨[], 0⟩ [.struct [['T'], ['T']] false, .fn [p]] = .ub := rfl

end Verif.GenScope
