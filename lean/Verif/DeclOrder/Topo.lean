import Verif.DeclOrder.Lemmas

/-! # The sort loop -/

namespace Verif.DeclOrder
open Spec

/-- node `i` waits for node `j` -/
def Dep (ns : List Node) (i j : Nat) : Prop :=
  i ≠ j ∧ ∃ n m, ns[i]? = some n ∧ ns[j]? = some m ∧ n.kind ≠ .trait ∧ m.kind ≠ .trait ∧
    dependsOn n m.name = true

theorem canEmit_iff {ns : List Node} {o : List Nat} {i : Nat} :
    canEmit ns o i = true ↔ i < ns.length ∧ ∀ j, Dep ns i j → j ∈ o := by
  unfold canEmit
  cases hi : ns[i]? with
  | none =>
      have := List.getElem?_eq_none_iff.1 hi
      simp; omega
  | some n =>
      have hlt : i < ns.length := by
        rcases Nat.lt_or_ge i ns.length with h | h
        · exact h
        · rw [List.getElem?_eq_none_iff.2 h] at hi; cases hi
      simp only [Bool.or_eq_true, decide_eq_true_eq, List.all_eq_true, List.mem_range, List.contains_iff_mem,
        hlt, true_and]
      constructor
      · rintro h j ⟨hne, n', m, h1, h2, h3, h4, h5⟩
        rw [hi] at h1; cases h1
        rcases h with h | h
        · exact absurd h h3
        · have hj : j < ns.length := by
            rcases Nat.lt_or_ge j ns.length with h | h
            · exact h
            · rw [List.getElem?_eq_none_iff.2 h] at h2; cases h2
          rcases h j hj with (h | h) | h
          · exact absurd h hne
          · exact h
          · rw [h2] at h
            simp [h4, h5] at h
      · intro h
        by_cases hk : n.kind = .trait
        · exact .inl hk
        · right
          intro j hj
          by_cases hij : i = j
          · exact .inl (.inl hij)
          · by_cases hjo : j ∈ o
            · exact .inl (.inr hjo)
            · right
              cases hm : ns[j]? with
              | none => rfl
              | some m =>
                  by_cases hmk : m.kind = .trait
                  · simp [hmk]
                  · cases hd : dependsOn n m.name with
                    | false => simp [hd]
                    | true => exact absurd (h j ⟨hij, n, m, hi, hm, hk, hmk, hd⟩) hjo

/-- the order so far: no repetitions, only indices, and everything a node waits for is in front
of it -/
structure Inv (ns : List Node) (o : List Nat) : Prop where
  nodup : o.Nodup
  lt : ∀ i ∈ o, i < ns.length
  front : ∀ a i b, o = a ++ i :: b → ∀ j, Dep ns i j → j ∈ a

theorem Inv.nil (ns : List Node) : Inv ns [] :=
  ⟨List.nodup_nil, by simp, fun a i b h => by simp at h⟩

theorem Inv.snoc {ns : List Node} {o : List Nat} {i : Nat} (h : Inv ns o) (hi : i ∉ o)
    (hc : canEmit ns o i = true) : Inv ns (o ++ [i]) := by
  obtain ⟨hlt, hdep⟩ := canEmit_iff.1 hc
  refine ⟨?_, ?_, ?_⟩
  · rw [List.nodup_append]
    refine ⟨h.nodup, by simp, ?_⟩
    intro a ha b hb
    rw [List.mem_singleton] at hb
    subst hb
    rintro rfl
    exact hi ha
  · intro k hk
    rcases List.mem_append.1 hk with hk | hk
    · exact h.lt k hk
    · rw [List.mem_singleton] at hk; exact hk ▸ hlt
  · intro a k b heq j hj
    rcases List.append_eq_append_iff.1 heq with ⟨c, h1, h2⟩ | ⟨c, h1, h2⟩
    · cases c with
      | nil =>
          simp only [List.nil_append, List.cons.injEq] at h2
          obtain ⟨rfl, rfl⟩ := h2
          rw [h1, List.append_nil]
          exact hdep j hj
      | cons x c => simp at h2
    · cases c with
      | nil =>
          simp only [List.nil_append, List.cons.injEq] at h2
          obtain ⟨rfl, _⟩ := h2
          have : a = o := by simpa using h1.symm
          rw [this]
          exact hdep j hj
      | cons x c =>
          simp only [List.cons_append, List.cons.injEq] at h2
          obtain ⟨rfl, h2⟩ := h2
          exact h.front a k c h1 j hj

theorem pass_spec (ns : List Node) : ∀ (l : List Nat) (o : List Nat) (c : Bool), Inv ns o →
    Inv ns (l.foldl (visit ns) (o, c)).1 ∧
    ((l.foldl (visit ns) (o, c) = (o, c) ∧ ∀ i ∈ l, i ∈ o ∨ canEmit ns o i = false) ∨
      ((l.foldl (visit ns) (o, c)).2 = true ∧ o.length < (l.foldl (visit ns) (o, c)).1.length))
  | [], o, c, h => ⟨h, .inl ⟨rfl, by simp⟩⟩
  | i :: l, o, c, h => by
      rw [List.foldl_cons]
      by_cases hi : i ∈ o
      · have hv : visit ns (o, c) i = (o, c) := by
          unfold visit; rw [if_pos (by simpa using hi)]
        rw [hv]
        obtain ⟨h1, h2⟩ := pass_spec ns l o c h
        refine ⟨h1, ?_⟩
        rcases h2 with ⟨h2, h3⟩ | h2
        · refine .inl ⟨h2, fun k hk => ?_⟩
          rcases List.mem_cons.1 hk with rfl | hk
          · exact .inl hi
          · exact h3 k hk
        · exact .inr h2
      · cases hc : canEmit ns o i with
        | true =>
            have hv : visit ns (o, c) i = (o ++ [i], true) := by
              unfold visit; rw [if_neg (by simpa using hi), if_pos hc]
            rw [hv]
            obtain ⟨h1, h2⟩ := pass_spec ns l (o ++ [i]) true (h.snoc hi hc)
            refine ⟨h1, .inr ?_⟩
            rcases h2 with ⟨h2, _⟩ | ⟨h2, h3⟩
            · rw [h2]; simp
            · refine ⟨h2, ?_⟩
              rw [List.length_append] at h3
              simp at h3; omega
        | false =>
            have hv : visit ns (o, c) i = (o, c) := by
              unfold visit; rw [if_neg (by simpa using hi), if_neg (by simp [hc])]
            rw [hv]
            obtain ⟨h1, h2⟩ := pass_spec ns l o c h
            refine ⟨h1, ?_⟩
            rcases h2 with ⟨h2, h3⟩ | h2
            · refine .inl ⟨h2, fun k hk => ?_⟩
              rcases List.mem_cons.1 hk with rfl | hk
              · exact .inr hc
              · exact h3 k hk
            · exact .inr h2

/-- the loop ends with nothing left that could be emitted, or with all its turns used, each of
which emitted something -/
theorem loop_spec (ns : List Node) : ∀ (f : Nat) (o : List Nat), Inv ns o →
    Inv ns (loop ns f o) ∧
      ((∀ i, i < ns.length → i ∈ loop ns f o ∨ canEmit ns (loop ns f o) i = false) ∨
        o.length + f ≤ (loop ns f o).length)
  | 0, o, h => ⟨h, .inr (by simp [loop])⟩
  | f + 1, o, h => by
      obtain ⟨h1, h2⟩ := pass_spec ns (List.range ns.length) o false h
      unfold loop
      dsimp only
      rcases h2 with ⟨h2, h3⟩ | ⟨h2, h3⟩
      · rw [h2]
        simp only [Bool.false_eq_true, if_false]
        exact ⟨h, .inl fun i hi => h3 i (List.mem_range.2 hi)⟩
      · rw [if_pos h2]
        obtain ⟨h4, h5⟩ := loop_spec ns f _ h1
        refine ⟨h4, ?_⟩
        rcases h5 with h5 | h5
        · exact .inl h5
        · right; omega

theorem nodup_full {n : Nat} {o : List Nat} (hn : o.Nodup) (hlt : ∀ i ∈ o, i < n) (hlen : n ≤ o.length) :
    ∀ i, i < n → i ∈ o := by
  intro i hi
  apply Classical.byContradiction
  intro hni
  have hsub : i :: o ⊆ List.range n := by
    intro k hk
    rcases List.mem_cons.1 hk with rfl | hk
    · exact List.mem_range.2 hi
    · exact List.mem_range.2 (hlt k hk)
  have := (List.nodup_cons.2 ⟨hni, hn⟩).length_le_of_subset hsub
  simp at this
  omega

/-- The `count * count` bound never cuts the loop short: what remains is really blocked. -/
theorem loop_blocked (ns : List Node) : ∀ i, i < ns.length →
    i ∈ loop ns (ns.length * ns.length) [] ∨ canEmit ns (loop ns (ns.length * ns.length) []) i = false := by
  obtain ⟨h1, h2⟩ := loop_spec ns (ns.length * ns.length) [] (Inv.nil ns)
  rcases h2 with h2 | h2
  · exact h2
  · intro i hi
    left
    refine nodup_full h1.nodup h1.lt ?_ i hi
    have : ns.length ≤ ns.length * ns.length := Nat.le_mul_self _
    simp at h2
    omega

/-- Every node whose dependencies can be ranked is emitted by the loop. -/
theorem loop_good (ns : List Node) (good : Nat → Prop) (rank : Nat → Nat)
    (hg : ∀ i, good i → i < ns.length ∧ ∀ j, Dep ns i j → good j ∧ rank j < rank i) :
    ∀ i, good i → i ∈ loop ns (ns.length * ns.length) [] := by
  suffices h : ∀ k i, rank i < k → good i → i ∈ loop ns (ns.length * ns.length) [] from
    fun i hi => h _ i (Nat.lt_succ_self _) hi
  intro k
  induction k with
  | zero => intro i h; omega
  | succ k ih =>
      intro i hr hi
      rcases loop_blocked ns i (hg i hi).1 with h | h
      · exact h
      · exfalso
        rw [Bool.eq_false_iff] at h
        refine h (canEmit_iff.2 ⟨(hg i hi).1, fun j hj => ?_⟩)
        obtain ⟨hgj, hrj⟩ := (hg i hi).2 j hj
        exact ih j (by omega) hgj

/-- The order is a permutation of the indices, cycles or not. -/
theorem topoOrder_perm (ns : List Node) : (topoOrder ns).Perm (List.range ns.length) := by
  obtain ⟨h1, _⟩ := loop_spec ns (ns.length * ns.length) [] (Inv.nil ns)
  unfold topoOrder
  dsimp only
  generalize loop ns (ns.length * ns.length) [] = o at *
  rw [List.perm_ext_iff_of_nodup]
  · intro i
    simp only [List.mem_append, List.mem_filter, List.mem_range, Bool.not_eq_true', List.contains_eq_mem,
      decide_eq_false_iff_not]
    constructor
    · rintro (h | h)
      · exact h1.lt i h
      · exact h.1
    · intro h
      by_cases hi : i ∈ o
      · exact .inl hi
      · exact .inr ⟨h, hi⟩
  · rw [List.nodup_append]
    refine ⟨h1.nodup, List.Pairwise.filter _ List.nodup_range, ?_⟩
    intro a ha b hb
    have := (List.mem_filter.1 hb).2
    rintro rfl
    simp [ha] at this
  · exact List.nodup_range

/-- Everything a rankable node waits for stands in front of it. -/
theorem topoOrder_front (ns : List Node) (good : Nat → Prop) (rank : Nat → Nat)
    (hg : ∀ i, good i → i < ns.length ∧ ∀ j, Dep ns i j → good j ∧ rank j < rank i)
    {a b : List Nat} {i : Nat} (h : topoOrder ns = a ++ i :: b) (hi : good i) :
    ∀ j, Dep ns i j → j ∈ a := by
  have hin := loop_good ns good rank hg i hi
  obtain ⟨h1, _⟩ := loop_spec ns (ns.length * ns.length) [] (Inv.nil ns)
  have hnd : (topoOrder ns).Nodup := (topoOrder_perm ns).nodup_iff.2 List.nodup_range
  unfold topoOrder at h hnd
  dsimp only at h hnd
  generalize loop ns (ns.length * ns.length) [] = o at *
  rcases List.append_eq_append_iff.1 h with ⟨c, h2, h3⟩ | ⟨c, h2, h3⟩
  · -- `i` would be behind `o`
    exfalso
    have : i ∈ (List.range ns.length).filter fun i => !o.contains i := by rw [h3]; simp
    have := (List.mem_filter.1 this).2
    simp [hin] at this
  · cases c with
    | nil =>
        exfalso
        simp only [List.nil_append] at h3
        have : i ∈ (List.range ns.length).filter fun i => !o.contains i := by rw [← h3]; simp
        have := (List.mem_filter.1 this).2
        simp [hin] at this
    | cons x c =>
        simp only [List.cons_append, List.cons.injEq] at h3
        obtain ⟨rfl, h3⟩ := h3
        exact h1.front a i c h2

end Verif.DeclOrder
