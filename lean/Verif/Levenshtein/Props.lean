import Verif.Levenshtein.Model

/-! # C39: spelling suggestions use the true edit distance -/

namespace Verif.Levenshtein

open Spec

/-! ## The recursive distance and single edits -/

/-- Textbook recursion from the front of both names (proof device). -/
def lev : Name → Name → Nat
  | [], b => b.length
  | _ :: a, [] => a.length + 1
  | x :: a, y :: b =>
    min (min (lev a (y :: b) + 1) (lev (x :: a) b + 1)) (lev a b + if x = y then 0 else 1)

theorem lev_nil_right (a : Name) : lev a [] = a.length := by cases a <;> simp [lev]

theorem lev_self (a : Name) : lev a a = 0 := by
  induction a with
  | nil => simp [lev]
  | cons x a ih => simp [lev, ih]

theorem lev_cons_le (x : UInt8) (a b : Name) : lev (x :: a) b ≤ lev a b + 1 := by
  cases b with
  | nil => simp [lev_nil_right]
  | cons y b => rw [lev]; omega

theorem lev_le_cons (x : UInt8) (a b : Name) : lev a b ≤ lev (x :: a) b + 1 := by
  induction b generalizing x a with
  | nil => simp [lev_nil_right]; omega
  | cons y b ih =>
    have h1 : lev a (y :: b) ≤ lev a b + 1 := by
      cases a with
      | nil => simp [lev]
      | cons z a => rw [lev]; omega
    have h2 := ih x a
    rw [lev]
    omega

theorem lev_sub (x x' : UInt8) (a b : Name) : lev (x :: a) b ≤ lev (x' :: a) b + 1 := by
  induction b with
  | nil => simp [lev]
  | cons y b ih => rw [lev, lev]; split <;> split <;> omega

theorem lev_congr (y : UInt8) {a a' : Name} (h : ∀ c, lev a c ≤ lev a' c + 1) (b : Name) :
    lev (y :: a) b ≤ lev (y :: a') b + 1 := by
  induction b with
  | nil => have := h []; simp [lev_nil_right] at this; simp [lev]; omega
  | cons z b ih =>
    have h1 := h (z :: b); have h2 := h b
    rw [lev, lev]; omega

theorem lev_congr_append (p : Name) {a a' : Name} (h : ∀ c, lev a c ≤ lev a' c + 1) (b : Name) :
    lev (p ++ a) b ≤ lev (p ++ a') b + 1 := by
  induction p generalizing b with
  | nil => exact h b
  | cons y p ih => exact lev_congr y ih b

theorem lev_edit {a a' : Name} (h : Edit a a') (b : Name) : lev a b ≤ lev a' b + 1 := by
  cases h with
  | ins p s c => exact lev_congr_append p (fun b => lev_le_cons c s b) b
  | del p s c => exact lev_congr_append p (fun b => lev_cons_le c s b) b
  | sub p s c d => exact lev_congr_append p (fun b => lev_sub c d s b) b

theorem lev_le_edits {a b : Name} {n : Nat} (h : Edits a b n) : lev a b ≤ n := by
  induction h with
  | nil a => rw [lev_self]; exact Nat.le_refl 0
  | cons he _ ih => exact Nat.le_trans (lev_edit he _) (by omega)

theorem _root_.Verif.Levenshtein.Spec.Edits.prep (x : UInt8) {a b : Name} {n : Nat} (h : Edits a b n) :
    Edits (x :: a) (x :: b) n := by
  induction h with
  | nil a => exact .nil _
  | cons he _ ih =>
    refine .cons ?_ ih
    cases he with
    | ins p s c => exact .ins (x :: p) s c
    | del p s c => exact .del (x :: p) s c
    | sub p s c d => exact .sub (x :: p) s c d

theorem edits_ins (b : Name) : Edits [] b b.length := by
  induction b with
  | nil => exact .nil _
  | cons x b ih => exact .cons (.ins [] [] x) (Edits.prep x ih)

theorem edits_del (a : Name) : Edits a [] a.length := by
  induction a with
  | nil => exact .nil _
  | cons x a ih => exact .cons (.del [] a x) ih

theorem edits_lev (a b : Name) : Edits a b (lev a b) := by
  induction a, b using lev.induct with
  | case1 b => rw [lev]; exact edits_ins b
  | case2 x a => rw [lev_nil_right]; exact edits_del _
  | case3 x a y b i1 i2 i3 =>
    have c1 : Edits (x :: a) (y :: b) (lev a (y :: b) + 1) := .cons (.del [] a x) i1
    have c2 : Edits (x :: a) (y :: b) (lev (x :: a) b + 1) :=
      .cons (.ins [] (x :: a) y) (Edits.prep y i2)
    have c3 : Edits (x :: a) (y :: b) (lev a b + if x = y then 0 else 1) := by
      split
      · rename_i h; subst h; exact Edits.prep x i3
      · exact .cons (.sub [] a x y) (Edits.prep y i3)
    rw [lev]
    rcases Nat.le_total (lev a (y :: b) + 1) (lev (x :: a) b + 1) with h | h
    · rw [Nat.min_eq_left h]
      rcases Nat.le_total (lev a (y :: b) + 1) (lev a b + if x = y then 0 else 1) with g | g
      · rw [Nat.min_eq_left g]; exact c1
      · rw [Nat.min_eq_right g]; exact c3
    · rw [Nat.min_eq_right h]
      rcases Nat.le_total (lev (x :: a) b + 1) (lev a b + if x = y then 0 else 1) with g | g
      · rw [Nat.min_eq_left g]; exact c2
      · rw [Nat.min_eq_right g]; exact c3

theorem lev_isDist (a b : Name) : IsDist a b (lev a b) := ⟨edits_lev a b, fun _ => lev_le_edits⟩

theorem _root_.Verif.Levenshtein.Spec.Edit.reverse {a b : Name} (h : Edit a b) : Edit a.reverse b.reverse := by
  cases h with
  | ins p s c => simp only [List.reverse_append, List.reverse_cons, List.append_assoc]; exact .ins _ _ c
  | del p s c => simp only [List.reverse_append, List.reverse_cons, List.append_assoc]; exact .del _ _ c
  | sub p s c d =>
    simp only [List.reverse_append, List.reverse_cons, List.append_assoc]; exact .sub _ _ c d

theorem _root_.Verif.Levenshtein.Spec.Edits.reverse {a b : Name} {n : Nat} (h : Edits a b n) :
    Edits a.reverse b.reverse n := by
  induction h with
  | nil a => exact .nil _
  | cons he _ ih => exact .cons he.reverse ih

theorem _root_.Verif.Levenshtein.Spec.IsDist.reverse {a b : Name} {n : Nat} (h : IsDist a b n) :
    IsDist a.reverse b.reverse n := by
  refine ⟨h.1.reverse, fun m hm => h.2 m ?_⟩
  simpa using hm.reverse

theorem _root_.Verif.Levenshtein.Spec.IsDist.unique {a b : Name} {n m : Nat} (h : IsDist a b n) (g : IsDist a b m) : n = m :=
  Nat.le_antisymm (h.2 _ g.1) (g.2 _ h.1)

/-! ## The matrix -/

/-- The number the program puts in a cell. -/
def val (s1 s2 : Name) (i j : Nat) : Nat := lev (s1.take i).reverse (s2.take j).reverse

theorem val_zero_right (s1 s2 : Name) (i : Nat) (h : i ≤ s1.length) : val s1 s2 i 0 = i := by
  simp [val, lev_nil_right]; omega

theorem val_zero_left (s1 s2 : Name) (j : Nat) (h : j ≤ s2.length) : val s1 s2 0 j = j := by
  simp [val, lev]; omega

theorem val_succ (s1 s2 : Name) (i j : Nat) (hi : i < s1.length) (hj : j < s2.length) :
    val s1 s2 (i + 1) (j + 1) =
      min (min (val s1 s2 i (j + 1) + 1) (val s1 s2 (i + 1) j + 1))
        (val s1 s2 i j + if s1[i] = s2[j] then 0 else 1) := by
  simp only [val, List.take_succ_eq_append_getElem hi, List.take_succ_eq_append_getElem hj,
    List.reverse_append, List.reverse_singleton, List.singleton_append, lev]

theorem store_ok {n1 n2 : Nat} (m : Mat) {i j : Nat} (v : Nat) (hi : i ≤ n1) (hj : j ≤ n2) :
    store n1 n2 m i j v = .ok (fun a b => if a = i ∧ b = j then some v else m a b) := by
  unfold store; rw [if_pos ⟨hi, hj⟩]

theorem load_ok {n1 n2 : Nat} {m : Mat} {i j v : Nat} (hi : i ≤ n1) (hj : j ≤ n2)
    (h : m i j = some v) : load n1 n2 m i j = .ok v := by
  unfold load; rw [if_pos ⟨hi, hj⟩, h]

theorem cell_ok (s1 s2 : Name) (m : Mat) (i j : Nat) (hi : i < s1.length) (hj : j < s2.length)
    (h1 : m i (j + 1) = some (val s1 s2 i (j + 1))) (h2 : m (i + 1) j = some (val s1 s2 (i + 1) j))
    (h3 : m i j = some (val s1 s2 i j)) :
    cell s1 s2 (i + 1) m (j + 1) = .ok (fun a b => if a = i + 1 ∧ b = j + 1 then
      some (val s1 s2 (i + 1) (j + 1)) else m a b) := by
  unfold cell
  have c1 : ch s1 (i + 1 - 1) = .ok s1[i] := by
    unfold ch; rw [Nat.add_sub_cancel, List.getElem?_eq_getElem hi]
  have c2 : ch s2 (j + 1 - 1) = .ok s2[j] := by
    unfold ch; rw [Nat.add_sub_cancel, List.getElem?_eq_getElem hj]
  rw [c1, c2]
  simp only [Res.ok_bind, Nat.add_sub_cancel]
  rw [load_ok (by omega) (by omega) h1, load_ok (by omega) (by omega) h2,
    load_ok (by omega) (by omega) h3]
  simp only [Res.ok_bind]
  rw [store_ok _ _ (by omega) (by omega), val_succ _ _ _ _ hi hj]
  congr 1
  funext a b
  congr 2
  generalize (if s1[i] = s2[j] then 0 else 1) = c
  split <;> split <;> omega

/-- The matrix computation yields the recursive distance. -/
theorem matrix_ok (s1 s2 : Name) :
    (do
      let m ← forUp (fun m i => store s1.length s2.length m i 0 i) 0 (s1.length + 1)
        (fun _ _ => none)
      let m ← forUp (fun m j => store s1.length s2.length m 0 j j) 0 (s2.length + 1) m
      let m ← forUp (fun m i => forUp (cell s1 s2 i) 1 s2.length m) 1 s1.length m
      load s1.length s2.length m s1.length s2.length) =
      .ok (lev s1.reverse s2.reverse) := by
  obtain ⟨m1, e1, p1⟩ := forUp_inv (fun m i => store s1.length s2.length m i 0 i)
    (fun k m => ∀ i, i < k → m i 0 = some i) (s1.length + 1) 0 (fun _ _ => none)
    (fun i h => absurd h (by omega))
    (fun k s _ hk hp => ⟨_, store_ok _ _ (by omega) (by omega), fun i hi => by
      by_cases h : i = k
      · simp [h]
      · simp [h]; exact hp i (by omega)⟩)
  obtain ⟨m2, e2, p2⟩ := forUp_inv (fun m j => store s1.length s2.length m 0 j j)
    (fun k m => (∀ i, i < s1.length + 1 → m i 0 = some i) ∧ ∀ j, j < k → m 0 j = some j)
    (s2.length + 1) 0 m1 ⟨fun i hi => p1 i (by omega), fun i h => absurd h (by omega)⟩
    (fun k s _ hk hp => ⟨_, store_ok _ _ (by omega) (by omega), fun i hi => by
        by_cases h : i = 0 ∧ 0 = k
        · simp [h.1, ← h.2]
        · simp only [if_neg h]; exact hp.1 i hi, fun j hj => by
        by_cases h : j = k
        · simp [h]
        · simp [h]; exact hp.2 j (by omega)⟩)
  have base : ∀ i j, i ≤ s1.length → j ≤ s2.length → i < 1 ∨ j < 1 →
      m2 i j = some (val s1 s2 i j) := by
    intro i j hi hj h
    rcases h with h | h
    · have : i = 0 := by omega
      subst this
      rw [p2.2 j (by omega), val_zero_left _ _ _ hj]
    · have : j = 0 := by omega
      subst this
      rw [p2.1 i (by omega), val_zero_right _ _ _ hi]
  obtain ⟨m3, e3, p3⟩ := forUp_inv (fun m i => forUp (cell s1 s2 i) 1 s2.length m)
    (fun k m => ∀ i j, i ≤ s1.length → j ≤ s2.length → i < k ∨ j < 1 →
      m i j = some (val s1 s2 i j)) s1.length 1 m2 base
    (fun k m hk1 hk hp => by
      obtain ⟨m', e, p⟩ := forUp_inv (cell s1 s2 k)
        (fun l m => ∀ i j, i ≤ s1.length → j ≤ s2.length → i < k ∨ j < 1 ∨ (i = k ∧ j < l) →
          m i j = some (val s1 s2 i j)) s2.length 1 m
        (fun i j hi hj h => hp i j hi hj (by omega))
        (fun l m hl1 hl hp => by
          obtain ⟨k', rfl⟩ : ∃ k', k = k' + 1 := ⟨k - 1, by omega⟩
          obtain ⟨l', rfl⟩ : ∃ l', l = l' + 1 := ⟨l - 1, by omega⟩
          refine ⟨_, cell_ok s1 s2 m k' l' (by omega) (by omega) (hp _ _ (by omega) (by omega)
            (by omega)) (hp _ _ (by omega) (by omega) (by omega)) (hp _ _ (by omega) (by omega)
            (by omega)), ?_⟩
          intro i j hi hj h
          by_cases hc : i = k' + 1 ∧ j = l' + 1
          · simp only [if_pos hc]; rw [hc.1, hc.2]
          · simp only [if_neg hc]; exact hp i j hi hj (by omega))
      exact ⟨m', e, fun i j hi hj h => p i j hi hj (by omega)⟩)
  rw [e1]; simp only [Res.ok_bind]
  rw [e2]; simp only [Res.ok_bind]
  rw [e3]; simp only [Res.ok_bind]
  rw [load_ok (Nat.le_refl _) (Nat.le_refl _) (p3 _ _ (Nat.le_refl _) (Nat.le_refl _) (by omega))]
  simp [val]

/-- C39.  For names whose lengths differ by at most three, the function returns the least
number of single-character insertions, deletions and substitutions that turn one into the
other. -/
theorem levenshtein_exact (s1 s2 : Name) (h : ((s1.length : Int) - s2.length).natAbs ≤ 3) :
    ∃ d, levenshtein s1 s2 = .ok d ∧ IsDist s1 s2 d := by
  refine ⟨lev s1.reverse s2.reverse, ?_, ?_⟩
  · unfold levenshtein
    simp only
    rw [if_neg (by omega)]
    exact matrix_ok s1 s2
  · simpa using (lev_isDist s1.reverse s2.reverse).reverse

theorem edit_length {a b : Name} (h : Edit a b) :
    ((a.length : Int) - b.length).natAbs ≤ 1 := by
  cases h <;> simp <;> omega

theorem edits_length {a b : Name} {n : Nat} (h : Edits a b n) :
    ((a.length : Int) - b.length).natAbs ≤ n := by
  induction h with
  | nil => simp
  | cons he _ ih => have := edit_length he; omega

/-- C39.  For other names the function answers 999, and no three edits suffice. -/
theorem levenshtein_cutoff (s1 s2 : Name) (h : ((s1.length : Int) - s2.length).natAbs > 3) :
    levenshtein s1 s2 = .ok 999 ∧ ∀ n, Edits s1 s2 n → 3 < n := by
  refine ⟨?_, fun n hn => ?_⟩
  · unfold levenshtein
    simp only
    rw [if_pos h]
  · have := edits_length hn; omega

/-- At most three edits: the function's answer decides it. -/
theorem levenshtein_le_three (s1 s2 : Name) :
    ∃ d, levenshtein s1 s2 = .ok d ∧ (d ≤ 3 → IsDist s1 s2 d) ∧
      (∀ n, n ≤ 3 → IsDist s1 s2 n → d = n) := by
  by_cases h : ((s1.length : Int) - s2.length).natAbs ≤ 3
  · obtain ⟨d, h1, h2⟩ := levenshtein_exact s1 s2 h
    exact ⟨d, h1, fun _ => h2, fun n _ hn => h2.unique hn⟩
  · obtain ⟨h1, h2⟩ := levenshtein_cutoff s1 s2 (by omega)
    exact ⟨999, h1, fun h => absurd h (by decide), fun n hn hd => by
      have := h2 n hd.1; omega⟩

/-- State of the search after some names: the best distance so far. -/
def Best (name : Name) (seen : List Name) (b : Nat × Option Name) : Prop :=
  (∀ m, b.2 = some m → m ∈ seen ∧ b.1 ≤ 3 ∧ IsDist name m b.1) ∧
  (b.2 = none → b.1 = 999) ∧
  (∀ x ∈ seen, ∀ n, n ≤ 3 → IsDist name x n → b.1 ≤ n)

theorem search_best (name : Name) (xs seen : List Name) (b : Nat × Option Name)
    (h : Best name seen b) : ∃ b', search name xs b = .ok b' ∧ Best name (seen ++ xs) b' := by
  induction xs generalizing seen b with
  | nil => exact ⟨b, rfl, by simpa using h⟩
  | cons x xs ih =>
    obtain ⟨d, h1, h2, h3⟩ := levenshtein_le_three name x
    have key : Best name (seen ++ [x]) (if d < b.1 ∧ d ≤ 3 then (d, some x) else b) := by
      split
      · rename_i hd
        refine ⟨?_, by simp, ?_⟩
        · intro m hm
          simp only [Option.some.injEq] at hm
          subst hm
          exact ⟨by simp, hd.2, h2 hd.2⟩
        · intro y hy n hn hdy
          rcases List.mem_append.mp hy with hy | hy
          · have := h.2.2 y hy n hn hdy; simp only; omega
          · simp only [List.mem_cons, List.not_mem_nil, or_false] at hy
            subst hy
            simp only; rw [h3 n hn hdy]; exact Nat.le_refl _
      · rename_i hd
        refine ⟨?_, h.2.1, ?_⟩
        · intro m hm
          have := h.1 m hm
          exact ⟨List.mem_append_left _ this.1, this.2⟩
        · intro y hy n hn hdy
          rcases List.mem_append.mp hy with hy | hy
          · exact h.2.2 y hy n hn hdy
          · simp only [List.mem_cons, List.not_mem_nil, or_false] at hy
            subst hy
            have := h3 n hn hdy
            omega
    obtain ⟨b', e, p⟩ := ih (seen ++ [x]) _ key
    refine ⟨b', ?_, by simpa using p⟩
    rw [search, consider, h1]
    exact e

/-- C39.  The suggestion for a name is a visible name at most three edits away, and no
visible name is closer; there is no suggestion exactly when no visible name is within three
edits. -/
theorem suggest_closest (name : Name) (syms : List Name) :
    ∃ r, suggest name syms = .ok r ∧
      (∀ m, r = some m → m ∈ syms ∧ ∃ d, d ≤ 3 ∧ IsDist name m d ∧
        ∀ x ∈ syms, ∀ n, Edits name x n → d ≤ n) ∧
      (r = none → ∀ x ∈ syms, ∀ n, Edits name x n → 3 < n) := by
  obtain ⟨b, e, p⟩ := search_best name syms [] (999, none)
    ⟨by simp, by simp, by simp⟩
  rw [List.nil_append] at p
  have low : ∀ x ∈ syms, ∀ n, Edits name x n → 3 < n ∨ b.1 ≤ n := by
    intro x hx n hn
    by_cases h3 : n ≤ 3
    · refine Or.inr ?_
      have hd := lev_isDist name x
      have := hd.2 n hn
      exact Nat.le_trans (p.2.2 x hx _ (by omega) hd) this
    · exact Or.inl (by omega)
  refine ⟨b.2, by unfold suggest; rw [e]; rfl, ?_, ?_⟩
  · intro m hm
    have ⟨h1, h2, h3⟩ := p.1 m hm
    refine ⟨h1, b.1, h2, h3, fun x hx n hn => ?_⟩
    rcases low x hx n hn with h | h
    · omega
    · exact h
  · intro hr x hx n hn
    have := p.2.1 hr
    rcases low x hx n hn with h | h
    · exact h
    · omega

/-! ## Concrete cases -/

example : levenshtein [107, 105, 116, 116, 101, 110] [115, 105, 116, 116, 105, 110, 103] = .ok 3 := by
  decide +kernel
example : suggest [112, 114, 110, 116] [[112, 114, 105, 110, 116], [112, 111, 105, 110, 116]] =
    .ok (some [112, 114, 105, 110, 116]) := by decide +kernel
example : suggest [97] [[98, 99, 100, 101, 102]] = .ok none := by decide +kernel

end Verif.Levenshtein
