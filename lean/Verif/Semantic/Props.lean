import Verif.Semantic.Model

/-!
# Semantic tokens: theorems
-/

namespace Verif.Semantic
open Verif Spec

/-! ## The encoding -/

/-- Without the elements that begin where the one before begins. -/
def dedup (prev : Option STok) : List STok → List STok
  | [] => []
  | t :: r =>
    if same prev t then dedup (some t) r
    else t :: dedup (some t) r

/-- Reading back. -/
theorem decode_encode : ∀ (l : List STok) (prev : Option STok) (pl pc : Int),
    decode pl pc (encode prev pl pc l) = (dedup prev l).map seen := by
  intro l
  induction l with
  | nil => intro prev pl pc; simp [encode, decode, dedup]
  | cons t r ih =>
    intro prev pl pc
    simp only [encode, dedup]
    by_cases h : same prev t = true
    · rw [if_pos h, if_pos h]
      exact ih _ _ _
    · rw [if_neg h, if_neg h]
      simp only [decode, List.map_cons, seen]
      have hl : pl + ((t.line : Int) - pl) = t.line := by omega
      rw [hl]
      by_cases e : (t.line : Int) - pl = 0
      · simp only [e, if_true]
        have hc : pc + ((t.col : Int) - pc) = t.col := by omega
        rw [hc, ih]
      · simp only [e, if_false]
        rw [ih]

/-- Strictly before. -/
def lt (a b : STok) : Prop := a.line < b.line ∨ (a.line = b.line ∧ a.col < b.col)

theorem dedup_spec : ∀ (l : List STok) (prev : Option STok), l.Pairwise le →
    (∀ q, prev = some q → ∀ t ∈ l, le q t) →
    (∀ t ∈ dedup prev l, t ∈ l ∧ ∀ q, prev = some q → lt q t) ∧ (dedup prev l).Pairwise lt ∧
    (∀ t ∈ l, (∃ q, prev = some q ∧ q.line = t.line ∧ q.col = t.col) ∨
      ∃ s ∈ dedup prev l, s.line = t.line ∧ s.col = t.col) := by
  intro l
  induction l with
  | nil => intro prev _ _; exact ⟨fun t h => by simp [dedup] at h, by simp [dedup], fun t h => by simp at h⟩
  | cons t r ih =>
    intro prev hs hp
    simp only [List.pairwise_cons] at hs
    obtain ⟨h1, h2, h3⟩ := ih (some t) hs.2 (fun q hq s hm => by
      simp only [Option.some.injEq] at hq
      subst hq
      exact hs.1 s hm)
    have hd : ∀ s ∈ dedup (some t) r, lt t s := fun s hm => (h1 s hm).2 t rfl
    simp only [dedup]
    by_cases h : same prev t = true
    · rw [if_pos h]
      cases prev with
      | none => simp [same] at h
      | some q =>
        simp only [same, Bool.and_eq_true, decide_eq_true_eq] at h
        refine ⟨fun s hm => ⟨by simp [(h1 s hm).1], fun q' hq' => ?_⟩, h2, fun s hm => ?_⟩
        · simp only [Option.some.injEq] at hq'
          subst hq'
          have := hd s hm
          simp only [lt] at this ⊢
          omega
        · simp only [List.mem_cons] at hm
          rcases hm with rfl | hm
          · exact .inl ⟨q, rfl, h.1.symm, h.2.symm⟩
          · rcases h3 s hm with ⟨q', hq', e⟩ | h'
            · simp only [Option.some.injEq] at hq'
              subst hq'
              exact .inl ⟨q, rfl, by omega, by omega⟩
            · exact .inr h'
    · rw [if_neg h]
      have ht : ∀ q, prev = some q → lt q t := by
        intro q hq
        subst hq
        have := hp q rfl t (by simp)
        simp only [same, Bool.and_eq_true, decide_eq_true_eq, not_and] at h
        simp only [le, lt] at this ⊢
        omega
      refine ⟨fun s hm => ?_, ?_, fun s hm => ?_⟩
      · simp only [List.mem_cons] at hm
        rcases hm with rfl | hm
        · exact ⟨by simp, ht⟩
        · refine ⟨by simp [(h1 s hm).1], fun q hq => ?_⟩
          have a := ht q hq
          have b := hd s hm
          simp only [lt] at a b ⊢
          omega
      · simp only [List.pairwise_cons]
        exact ⟨hd, h2⟩
      · simp only [List.mem_cons] at hm
        rcases hm with rfl | hm
        · exact .inr ⟨s, by simp, rfl, rfl⟩
        · rcases h3 s hm with ⟨q', hq', e1, e2⟩ | ⟨s', hs', e⟩
          · simp only [Option.some.injEq] at hq'
            subst hq'
            exact .inr ⟨t, by simp, e1, e2⟩
          · exact .inr ⟨s', by simp [hs'], e⟩

/-- **C98** (the encoding, in full).  However `qsort` orders equal elements, what a client decodes are
collected tokens, strictly in order, one for every place that was collected. -/
theorem encoding {l l' : List STok} (h : Sorted l l') : ∃ d : List STok, decode 0 0 (answer l') = d.map seen ∧
    d.Pairwise lt ∧ (∀ t ∈ d, t ∈ l) ∧ ∀ t ∈ l, ∃ s ∈ d, s.line = t.line ∧ s.col = t.col := by
  obtain ⟨h1, h2, h3⟩ := dedup_spec l' none h.2 (fun q hq => by simp at hq)
  refine ⟨dedup none l', decode_encode l' none 0 0, h2, fun t ht => h.1.mem_iff.mp (h1 t ht).1, fun t ht => ?_⟩
  rcases h3 t (h.1.mem_iff.mpr ht) with ⟨q, hq, _⟩ | h
  · simp at hq
  · exact h

/-- There is always such an order. -/
theorem sorted_exists (l : List STok) : ∃ l', Sorted l l' := by
  induction l with
  | nil => exact ⟨[], .refl _, .nil⟩
  | cons t r ih =>
    obtain ⟨r', hp, hs⟩ := ih
    suffices ∀ l : List STok, l.Pairwise le → ∃ l' : List STok, l'.Perm (t :: l) ∧ l'.Pairwise le by
      obtain ⟨l', h1, h2⟩ := this r' hs
      exact ⟨l', h1.trans (hp.cons t), h2⟩
    intro l
    induction l with
    | nil => intro _; exact ⟨[t], .refl _, by simp⟩
    | cons s l ih =>
      intro h
      simp only [List.pairwise_cons] at h
      by_cases e : le t s
      · refine ⟨t :: s :: l, .refl _, ?_⟩
        simp only [List.pairwise_cons]
        refine ⟨fun a ha => ?_, h⟩
        simp only [List.mem_cons] at ha
        rcases ha with rfl | ha
        · exact e
        · have := h.1 a ha
          simp only [le] at this e ⊢
          omega
      · obtain ⟨l', h1, h2⟩ := ih h.2
        refine ⟨s :: l', (h1.cons s).trans (.swap ..), ?_⟩
        simp only [List.pairwise_cons]
        refine ⟨fun a ha => ?_, h2⟩
        have := h1.mem_iff.mp ha
        simp only [List.mem_cons] at this
        rcases this with rfl | ha
        · simp only [le] at e ⊢
          omega
        · exact h.1 a ha

/-! ## The traversal -/

/-- The place of a token, from 1. -/
def STok.place (t : STok) : Tok := ⟨t.line + 1, t.col + 1, t.len⟩

/-- Tokens have a place. -/
def Placed (l : List Tok) : Prop := ∀ t ∈ l, 0 < t.line ∧ 0 < t.col

theorem placed_app {a b : List Tok} (h : Placed (a ++ b)) : Placed a ∧ Placed b :=
  ⟨fun t ht => h t (by simp [ht]), fun t ht => h t (by simp [ht])⟩

theorem push_place (t : Option Tok) (ty m : Nat) (h : Placed t.toList) :
    (push t ty m).map STok.place = t.toList := by
  cases t with
  | none => rfl
  | some t =>
    have := h t (by simp)
    simp only [push, this, and_self, if_true, List.map_cons, List.map_nil, STok.place, Option.toList_some]
    have h1 : t.line - 1 + 1 = t.line := by omega
    have h2 : t.col - 1 + 1 = t.col := by omega
    rw [h1, h2]

theorem push_sub {t : Option Tok} {ty m : Nat} {s : STok} (h : s ∈ push t ty m) : s.place ∈ t.toList := by
  cases t with
  | none => simp [push] at h
  | some t =>
    simp only [push] at h
    split at h
    · rename_i e
      simp only [List.mem_singleton] at h
      subst h
      simp only [STok.place, Option.toList_some, List.mem_singleton]
      have h1 : t.line - 1 + 1 = t.line := by omega
      have h2 : t.col - 1 + 1 = t.col := by omega
      rw [h1, h2]
    · simp at h

mutual
theorem trav_places : ∀ n : Node, Plain n → Placed (places n) → (trav n).map STok.place = places n
  | .leaf k t, _, h => by
    cases k <;> simp only [trav, leafTok, places] at h ⊢
    case plain => rfl
    all_goals exact push_place t _ _ h
  | .fn t ps body, hp, h => by
    obtain ⟨rfl, h1, h2⟩ := hp
    simp only [places, List.nil_append] at h ⊢
    obtain ⟨a, b⟩ := placed_app h
    simp only [trav, List.map_append, push_place t _ _ a, first_places body h1 h2 b]
  | .decl c t init, hp, h => by
    simp only [places] at h ⊢
    obtain ⟨a, b⟩ := placed_app h
    simp only [trav, List.map_append, push_place t _ _ a, first_places init hp.1 hp.2 b]
  | .block b, hp, h => each_places b hp h
  | .ret e, hp, h => first_places e hp.1 hp.2 h
  | .bin l r, hp, h => by
    simp only [places] at h ⊢
    obtain ⟨a, b⟩ := placed_app h
    simp only [trav, List.map_append, trav_places l hp.1 a, trav_places r hp.2 b]
  | .call f args, hp, h => by
    simp only [places] at h ⊢
    obtain ⟨a, b⟩ := placed_app h
    simp only [trav, List.map_append, trav_places f hp.1 a, each_places args hp.2 b]
  | .member x t, hp, h => by
    simp only [places] at h ⊢
    obtain ⟨a, b⟩ := placed_app h
    simp only [trav, List.map_append, trav_places x hp a, push_place t _ _ b]
  | .group k t items, hp, h => by
    simp only [places] at h ⊢
    obtain ⟨a, b⟩ := placed_app h
    simp only [trav, List.map_append, first_places items hp.1 hp.2 b]
    congr 1
    cases k <;> exact push_place t _ _ a
  | .destruct e els, hp, h => by
    simp only [places] at h ⊢
    obtain ⟨a, b⟩ := placed_app h
    simp only [trav, List.map_append, trav_places e hp.1 a, first_places els hp.2.1 hp.2.2 b]
  | .arm g b, hp, h => by
    simp only [places] at h ⊢
    obtain ⟨a, b'⟩ := placed_app h
    simp only [trav, List.map_append, first_places g hp.1 hp.2.1 a, trav_places b hp.2.2 b']
  | .lambda b, hp, h => trav_places b hp h
  | .range a b c, hp, h => by
    simp only [places] at h ⊢
    obtain ⟨h1, h2⟩ := placed_app h
    obtain ⟨h2, h3⟩ := placed_app h2
    simp only [trav, List.map_append, trav_places a hp.1 h1, trav_places b hp.2.1 h2, trav_places c hp.2.2 h3]
  | .other kids, hp, h => by
    simp only [trav, places]
    exact hp.symm
theorem each_places : ∀ n : Nodes, Plains n → Placed (placess n) → (each n).map STok.place = placess n
  | .nil, _, _ => rfl
  | .cons n r, hp, h => by
    simp only [placess] at h ⊢
    obtain ⟨a, b⟩ := placed_app h
    simp only [each, List.map_append, trav_places n hp.1 a, each_places r hp.2 b]
theorem first_places : ∀ n : Nodes, single n → Plains n → Placed (placess n) → (first n).map STok.place = placess n
  | .nil, _, _, _ => rfl
  | .cons n .nil, _, hp, h => by
    simp only [placess, List.append_nil] at h ⊢
    exact trav_places n hp.1 h
  | .cons _ (.cons _ _), hs, _, _ => hs.elim
end

/-- **C98** (partial: a file with one declaration, `Plain`).  What a client decodes are exactly the
names and literals of the file, each place once, in order. -/
theorem tokens_partial {n : Node} (hp : Plain n) (hl : Placed (places n)) {l' : List STok}
    (h : Sorted (collect (.cons n .nil)) l') : ∃ d : List STok, decode 0 0 (answer l') = d.map seen ∧ d.Pairwise lt ∧
      (∀ t ∈ d, t.place ∈ places n) ∧ ∀ t ∈ places n, ∃ s ∈ d, s.line + 1 = t.line ∧ s.col + 1 = t.col := by
  obtain ⟨d, h1, h2, h3, h4⟩ := encoding h
  have e : (collect (.cons n .nil)).map STok.place = places n := trav_places n hp hl
  refine ⟨d, h1, h2, fun t ht => ?_, fun t ht => ?_⟩
  · rw [← e]
    exact List.mem_map.mpr ⟨t, h3 t ht, rfl⟩
  · rw [← e] at ht
    obtain ⟨s, hs, rfl⟩ := List.mem_map.mp ht
    obtain ⟨q, hq, e1, e2⟩ := h4 s hs
    exact ⟨q, hq, by simp [STok.place, e1], by simp [STok.place, e2]⟩

/-- A token as a client sees it: its place and its names. -/
def named (s : STok) : Tok × Option String × List String := (s.place, names s.type s.mods)

theorem push_named (t : Option Tok) (ty m : Nat) (h : Placed t.toList) :
    (push t ty m).map named = t.toList.map (·, names ty m) := by
  cases t with
  | none => rfl
  | some t =>
    have := h t (by simp)
    simp only [push, this, and_self, if_true, List.map_cons, List.map_nil, named, STok.place, Option.toList_some]
    have h1 : t.line - 1 + 1 = t.line := by omega
    have h2 : t.col - 1 + 1 = t.col := by omega
    rw [h1, h2]

mutual
theorem trav_named : ∀ n : Node, Plain n → NoConst n → Placed (places n) → (trav n).map named = roles n
  | .leaf k t, _, _, h => by
    cases k with
    | plain => cases t <;> rfl
    | _ =>
      simp only [trav, leafTok, places] at h ⊢
      rw [push_named t _ _ h]
      cases t <;> rfl
  | .fn t ps body, hp, hc, h => by
    obtain ⟨rfl, h1, h2⟩ := hp
    simp only [places, List.nil_append] at h
    obtain ⟨a, b⟩ := placed_app h
    simp only [trav, roles, List.map_append, push_named t _ _ a, first_named body h1 h2 hc b, List.map_nil,
      List.nil_append]
    rfl
  | .decl c t init, hp, hc, h => by
    obtain ⟨rfl, hc⟩ := hc
    simp only [places] at h
    obtain ⟨a, b⟩ := placed_app h
    simp only [trav, roles, List.map_append, push_named t _ _ a, first_named init hp.1 hp.2 hc b]
    rfl
  | .block b, hp, hc, h => each_named b hp hc h
  | .ret e, hp, hc, h => first_named e hp.1 hp.2 hc h
  | .bin l r, hp, hc, h => by
    simp only [places] at h
    obtain ⟨a, b⟩ := placed_app h
    simp only [trav, roles, List.map_append, trav_named l hp.1 hc.1 a, trav_named r hp.2 hc.2 b]
  | .call f args, hp, hc, h => by
    simp only [places] at h
    obtain ⟨a, b⟩ := placed_app h
    simp only [trav, roles, List.map_append, trav_named f hp.1 hc.1 a, each_named args hp.2 hc.2 b]
  | .member x t, hp, hc, h => by
    simp only [places] at h
    obtain ⟨a, b⟩ := placed_app h
    simp only [trav, roles, List.map_append, trav_named x hp hc a, push_named t _ _ b]
    rfl
  | .group k t items, hp, hc, h => by
    simp only [places] at h
    obtain ⟨a, b⟩ := placed_app h
    simp only [trav, roles, List.map_append, first_named items hp.1 hp.2 hc b]
    congr 1
    cases k <;> exact push_named t _ _ a
  | .destruct e els, hp, hc, h => by
    simp only [places] at h
    obtain ⟨a, b⟩ := placed_app h
    simp only [trav, roles, List.map_append, trav_named e hp.1 hc.1 a, first_named els hp.2.1 hp.2.2 hc.2 b]
  | .arm g b, hp, hc, h => by
    simp only [places] at h
    obtain ⟨a, b'⟩ := placed_app h
    simp only [trav, roles, List.map_append, first_named g hp.1 hp.2.1 hc.1 a, trav_named b hp.2.2 hc.2 b']
  | .lambda b, hp, hc, h => trav_named b hp hc h
  | .range a b c, hp, hc, h => by
    simp only [places] at h
    obtain ⟨h1, h2⟩ := placed_app h
    obtain ⟨h2, h3⟩ := placed_app h2
    simp only [trav, roles, List.map_append, trav_named a hp.1 hc.1 h1, trav_named b hp.2.1 hc.2.1 h2,
      trav_named c hp.2.2 hc.2.2 h3]
  | .other kids, _, hc, _ => by
    simp only [trav, roles]
    exact hc.symm
theorem each_named : ∀ n : Nodes, Plains n → NoConsts n → Placed (placess n) → (each n).map named = roless n
  | .nil, _, _, _ => rfl
  | .cons n r, hp, hc, h => by
    simp only [placess] at h
    obtain ⟨a, b⟩ := placed_app h
    simp only [each, roless, List.map_append, trav_named n hp.1 hc.1 a, each_named r hp.2 hc.2 b]
theorem first_named : ∀ n : Nodes, single n → Plains n → NoConsts n → Placed (placess n) →
    (first n).map named = roless n
  | .nil, _, _, _, _ => rfl
  | .cons n .nil, _, hp, hc, h => by
    simp only [placess, List.append_nil] at h
    simp only [first, roless, List.append_nil]
    exact trav_named n hp.1 hc.1 h
  | .cons _ (.cons _ _), hs, _, _, _ => hs.elim
end

/-- **C98** (partial: a file with one declaration, `Plain`, without constants).  The types and modifiers
a client reads for the tokens are what the names and literals are. -/
theorem types_partial {n : Node} (hp : Plain n) (hc : NoConst n) (hl : Placed (places n)) {l' : List STok}
    (h : Sorted (collect (.cons n .nil)) l') : ∃ d : List STok, decode 0 0 (answer l') = d.map seen ∧
      ∀ t ∈ d, named t ∈ roles n := by
  obtain ⟨d, h1, h2, h3, h4⟩ := encoding h
  refine ⟨d, h1, fun t ht => ?_⟩
  rw [← show (collect (.cons n .nil)).map named = roles n from trav_named n hp hc hl]
  exact List.mem_map.mpr ⟨t, h3 t ht, rfl⟩

/-- **A constant is not `readonly`**: the bit set for it is that of `definition`. -/
theorem const_violated (t : Tok) (ht : Placed [t]) :
    (trav (.decl true (some t) .nil)).map named = [(t, some "variable", ["definition"])] ∧
    roles (.decl true (some t) .nil) = [(t, some "variable", ["readonly"])] := by
  constructor
  · simp only [trav, List.map_append]
    rw [push_named (some t) _ _ ht]
    rfl
  · rfl

/-- `fn main() { let total = 1 + 2; return total; }`. -/
def mainFn : Node :=
  .fn (some ⟨1, 4, 4⟩) [] (.cons (.block
    (.cons (.decl false (some ⟨2, 9, 5⟩) (.cons (.bin (.leaf .num (some ⟨2, 17, 1⟩)) (.leaf .num (some ⟨2, 21, 1⟩))) .nil))
      (.cons (.ret (.cons (.leaf .var (some ⟨3, 12, 5⟩)) .nil)) .nil))) .nil)

/-- It meets the hypotheses. -/
theorem main_hyps : Plain mainFn ∧ Placed (places mainFn) ∧
    places mainFn = [⟨1, 4, 4⟩, ⟨2, 9, 5⟩, ⟨2, 17, 1⟩, ⟨2, 21, 1⟩, ⟨3, 12, 5⟩] := by
  refine ⟨by simp [mainFn, Plain, Plains, single], ?_, by decide⟩
  intro t ht
  simp only [mainFn, places, placess, Option.toList_some, List.nil_append, List.append_nil, List.cons_append,
    List.mem_cons, List.not_mem_nil, or_false] at ht
  rcases ht with rfl | rfl | rfl | rfl | rfl <;> simp

theorem main_noconst : NoConst mainFn := by simp [mainFn, NoConst, NoConsts]

/-- Its numbers. -/
theorem main_answer : answer (collect (.cons mainFn .nil)) =
    [0, 3, 4, 1, 1, 1, 8, 5, 0, 0, 0, 8, 1, 5, 0, 0, 4, 1, 5, 0, 1, 11, 5, 0, 0] := by decide

/-! ## What goes wrong -/

mutual
theorem trav_sub : ∀ n : Node, ∀ s ∈ trav n, s.place ∈ places n
  | .leaf k t, s, h => by
    cases k <;> simp only [trav, leafTok, places] at h ⊢
    case plain => simp at h
    all_goals exact push_sub h
  | .fn t ps body, s, h => by
    simp only [trav, List.mem_append] at h
    simp only [places, List.mem_append]
    rcases h with h | h
    · exact .inl (push_sub h)
    · exact .inr (.inr (first_sub body s h))
  | .decl c t init, s, h => by
    simp only [trav, List.mem_append] at h
    simp only [places, List.mem_append]
    exact h.imp push_sub (first_sub init s)
  | .block b, s, h => each_sub b s h
  | .ret e, s, h => first_sub e s h
  | .bin l r, s, h => by
    simp only [trav, List.mem_append] at h
    simp only [places, List.mem_append]
    exact h.imp (trav_sub l s) (trav_sub r s)
  | .call f args, s, h => by
    simp only [trav, List.mem_append] at h
    simp only [places, List.mem_append]
    exact h.imp (trav_sub f s) (each_sub args s)
  | .member x t, s, h => by
    simp only [trav, List.mem_append] at h
    simp only [places, List.mem_append]
    exact h.imp (trav_sub x s) push_sub
  | .group k t items, s, h => by
    simp only [trav, List.mem_append] at h
    simp only [places, List.mem_append]
    refine h.imp (fun h => ?_) (first_sub items s)
    cases k <;> exact push_sub h
  | .destruct e els, s, h => by
    simp only [trav, List.mem_append] at h
    simp only [places, List.mem_append]
    exact h.imp (trav_sub e s) (first_sub els s)
  | .arm g b, s, h => by
    simp only [trav, List.mem_append] at h
    simp only [places, List.mem_append]
    exact h.imp (first_sub g s) (trav_sub b s)
  | .lambda b, s, h => trav_sub b s h
  | .range a b c, s, h => by
    simp only [trav, List.mem_append] at h
    simp only [places, List.mem_append]
    exact h.imp (trav_sub a s) (fun h => h.imp (trav_sub b s) (trav_sub c s))
  | .other kids, s, h => by simp [trav] at h
theorem each_sub : ∀ n : Nodes, ∀ s ∈ each n, s.place ∈ placess n
  | .nil, s, h => by simp [each] at h
  | .cons n r, s, h => by
    simp only [each, List.mem_append] at h
    simp only [placess, List.mem_append]
    exact h.imp (trav_sub n s) (each_sub r s)
theorem first_sub : ∀ n : Nodes, ∀ s ∈ first n, s.place ∈ placess n
  | .nil, s, h => by simp [first] at h
  | .cons n r, s, h => by
    simp only [first] at h
    simp only [placess, List.mem_append]
    exact .inl (trav_sub n s h)
end

/-- Nothing is coloured that was not collected. -/
theorem uncoloured {l l' : List STok} (h : Sorted l l') {line col : Nat}
    (hn : ∀ s ∈ l, ¬ (s.line = line ∧ s.col = col)) : ∀ q ∈ decode 0 0 (answer l'), (q.1, q.2.1) ≠ ((line : Int), (col : Int)) := by
  obtain ⟨d, h1, _, h3, _⟩ := encoding h
  intro q hq e
  rw [h1] at hq
  obtain ⟨s, hs, rfl⟩ := List.mem_map.mp hq
  simp only [seen, Prod.mk.injEq] at e
  exact hn s (h3 s hs) (by omega)

/-- **C98** fails for every file with more than one declaration: no name or literal of the second and
later declarations is coloured. -/
theorem rest_violated (n : Node) (rest : Nodes) {l' : List STok} (h : Sorted (collect (.cons n rest)) l')
    {t : Tok} (_ : t ∈ placess rest) (hl : 0 < t.line ∧ 0 < t.col)
    (hn : ∀ s ∈ places n, ¬ (s.line = t.line ∧ s.col = t.col)) :
    ∀ q ∈ decode 0 0 (answer l'), (q.1, q.2.1) ≠ (((t.line - 1 : Nat) : Int), ((t.col - 1 : Nat) : Int)) := by
  refine uncoloured h (fun s hs e => ?_)
  have := trav_sub n s hs
  refine hn _ this ?_
  simp only [STok.place]
  omega

/-- A second function. -/
theorem rest_demo : places mainFn ≠ [] ∧
    collect (.cons (.decl false (some ⟨1, 5, 1⟩) (.cons (.leaf .num (some ⟨1, 9, 1⟩)) .nil)) (.cons mainFn .nil))
      = [⟨0, 4, 1, 0, 0⟩, ⟨0, 8, 1, 5, 0⟩] := by decide

/-- **C98** fails for every struct, enum, trait and impl: of the fields, variants and methods only the
first is coloured. -/
theorem items_violated (k : Group) (t : Option Tok) (n : Node) (rest : Nodes) {l' : List STok}
    (h : Sorted (collect (.cons (.group k t (.cons n rest)) .nil)) l')
    {f : Tok} (_ : f ∈ placess rest) (hl : 0 < f.line ∧ 0 < f.col)
    (hn : ∀ s ∈ t.toList ++ places n, ¬ (s.line = f.line ∧ s.col = f.col)) :
    ∀ q ∈ decode 0 0 (answer l'), (q.1, q.2.1) ≠ (((f.line - 1 : Nat) : Int), ((f.col - 1 : Nat) : Int)) := by
  refine uncoloured h (fun s hs e => ?_)
  simp only [collect, first, trav, List.mem_append] at hs
  have : s.place ∈ t.toList ++ places n := by
    simp only [List.mem_append]
    refine hs.imp (fun h => ?_) (trav_sub n s)
    cases k <;> exact push_sub h
  refine hn _ this ?_
  simp only [STok.place]
  omega

/-- `struct P { x: int; y: int; }`: `y` is not coloured. -/
theorem items_demo : answer (collect (.cons (.group .struct (some ⟨1, 8, 1⟩)
    (.cons (.leaf .field (some ⟨1, 12, 1⟩)) (.cons (.leaf .field (some ⟨1, 20, 1⟩)) .nil))) .nil))
      = [0, 7, 1, 2, 0, 0, 4, 1, 9, 0] := by decide

/-- **C98** fails for every statement and expression the traversal does not name: the condition and
the branches of an `if`, the body of a `while`, the arms of a `match`, the operand of a minus. -/
theorem other_violated (t : Option Tok) (kids : Nodes) {l' : List STok}
    (h : Sorted (collect (.cons (.fn t [] (.cons (.block (.cons (.other kids) .nil)) .nil)) .nil)) l')
    {f : Tok} (_ : f ∈ placess kids) (hl : 0 < f.line ∧ 0 < f.col)
    (hn : ∀ s ∈ t.toList, ¬ (s.line = f.line ∧ s.col = f.col)) :
    ∀ q ∈ decode 0 0 (answer l'), (q.1, q.2.1) ≠ (((f.line - 1 : Nat) : Int), ((f.col - 1 : Nat) : Int)) := by
  refine uncoloured h (fun s hs e => ?_)
  simp only [collect, first, trav, each, List.append_nil] at hs
  refine hn _ (push_sub hs) ?_
  simp only [STok.place]
  omega

/-- Such a function: no name in its `if` is coloured. -/
theorem other_demo : let n : Node := .fn (some ⟨1, 4, 1⟩) [] (.cons (.block (.cons
      (.other (.cons (.leaf .var (some ⟨2, 8, 1⟩)) (.cons (.block (.cons (.ret (.cons (.leaf .num (some ⟨3, 16, 1⟩)) .nil)) .nil)) .nil)))
      .nil)) .nil)
    trav n = [⟨0, 3, 1, 1, 1⟩] ∧ places n = [⟨1, 4, 1⟩, ⟨2, 8, 1⟩, ⟨3, 16, 1⟩] := by decide

/-- **C98** fails for parameters. -/
theorem params_violated (t : Option Tok) (ps : List Tok) (body : Nodes) : trav (.fn t ps body) = trav (.fn t [] body) := by
  simp [trav]

end Verif.Semantic
