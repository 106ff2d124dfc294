import Verif.Pratt.Complete

/-!
# Every parsed tree is a tree of the grammar
-/

namespace Verif.Pratt

open Spec

/-- soundness of the three functions for some amount of fuel -/
structure Sound (g : G) (n : Nat) : Prop where
  parse : ∀ p ts e rest, p ≤ g.un → parseN g n p ts = some (e, rest) →
    der g e p ts rest ∧ (next g rest = 0 ∨ next g rest < p)
  loop : ∀ p l ts0 ts e rest, p ≤ g.un → p ≤ lev g l → der g l (lev g l) ts0 ts →
    next g ts < thr g (lev g l) → loop g n p l ts = some (e, rest) →
    der g e p ts0 rest ∧ (next g rest = 0 ∨ next g rest < p)
  args : ∀ ts as rest, args g n ts = some (as, rest) → as ≠ .nil ∧ ders g as false ts rest

theorem loop_sound {g : G} (hg : WF g) {n : Nat} (ih : Sound g n) (p : Nat) (l : Expr)
    (ts0 ts : List Tok) (e : Expr) (rest : List Tok) (hp : p ≤ g.un) (hl : p ≤ lev g l)
    (hd : der g l (lev g l) ts0 ts) (hs : next g ts < thr g (lev g l))
    (h : Pratt.loop g (n + 1) p l ts = some (e, rest)) :
    der g e p ts0 rest ∧ (next g rest = 0 ∨ next g rest < p) := by
  have hc : g.call = g.un + 1 := rfl
  have hu3 := hg.un
  have hdp := der_mono hd hl
  have hnc : ¬ g.call < p := by omega
  have htc : thr g g.call = g.call + 1 := by simp [thr, hg.rcall]
  -- an operand of a postfix operator
  have hpost : next g ts = g.call → der g l g.call ts0 ts := fun hn => by
    have := thr_le g (lev g l)
    exact der_mono hd (by omega)
  -- what follows a postfix operator
  have hnext : ∀ r, next g r ≤ g.call := by
    intro r
    cases r with
    | nil => simp [next]
    | cons t r =>
      obtain ⟨k, b⟩ := t
      cases k <;> simp only [next] <;> try omega
      · rename_i o
        have := hg.prec o
        split <;> (try split) <;> omega
      · split <;> omega
  have hgo : ∀ (l' : Expr) (r : List Tok), lev g l' = g.call → der g l' g.call ts0 r →
      Pratt.loop g n p l' r = some (e, rest) →
      der g e p ts0 rest ∧ (next g rest = 0 ∨ next g rest < p) := fun l' r hv hd' h' =>
    ih.loop p l' ts0 r e rest hp (by omega) (by rw [hv]; exact hd') (by
      rw [hv, htc]; have := hnext r; omega) h'
  cases ts with
  | nil =>
    simp only [Pratt.loop, Option.some.injEq, Prod.mk.injEq] at h
    obtain ⟨rfl, rfl⟩ := h
    exact ⟨hdp, .inl rfl⟩
  | cons t r =>
    obtain ⟨k, b⟩ := t
    cases k
    case op o =>
      simp only [Pratt.loop] at h
      by_cases h1 : (b && g.brk o) = true
      · simp only [h1, if_true, Option.some.injEq, Prod.mk.injEq] at h
        obtain ⟨rfl, rfl⟩ := h
        exact ⟨hdp, .inl (by simp only [next, h1, if_true])⟩
      · simp only [h1] at h
        simp only [Bool.false_eq_true, if_false] at h
        have h1' : (b && g.brk o) = false := by simpa using h1
        by_cases h2 : isInc o = true
        · simp only [h2, if_true] at h
          refine hgo _ _ rfl ?_ h
          simp only [der]
          exact ⟨h2, b, h1', hpost (by simp [next, h1', h2])⟩
        · have h2' : isInc o = false := by simpa using h2
          simp only [h2', Bool.false_eq_true, if_false] at h
          have hn : next g (⟨.op o, b⟩ :: r) = g.prec o := by simp [next, h1', h2']
          by_cases h3 : g.prec o = 0 ∨ g.prec o < p
          · rw [if_pos h3] at h
            simp only [Option.some.injEq, Prod.mk.injEq] at h
            obtain ⟨rfl, rfl⟩ := h
            exact ⟨hdp, by rw [hn]; exact h3⟩
          · rw [if_neg h3] at h
            have hpr := hg.prec o
            split at h
            · rename_i e' r' he
              have hru : g.rhs o ≤ g.un := by unfold G.rhs; split <;> omega
              obtain ⟨g1, g2⟩ := ih.parse _ _ _ _ hru he
              rw [hn] at hs
              refine ih.loop p (.bin o l e') ts0 r' e rest hp (by simp only [lev]; omega) ?_ ?_ h
              · simp only [der, lev]
                refine ⟨Nat.le_refl _, by omega, h2', b, r, h1', der_mono hd ?_, g1⟩
                unfold thr at hs
                split <;> rename_i hx
                · by_cases hq : lev g l = g.prec o
                  · rw [hq, if_pos hx] at hs; omega
                  · split at hs <;> omega
                · split at hs <;> omega
              · simp only [lev]
                unfold G.rhs at g2
                unfold thr
                split at g2 <;> rename_i hx
                · rw [if_pos hx]; omega
                · rw [if_neg hx]; omega
            · simp at h
    case quest =>
      simp only [Pratt.loop, if_neg hnc] at h
      by_cases h1 : g.tern r = true
      · have hn : next g (⟨.quest, b⟩ :: r) = 2 := by simp [next, h1]
        simp only [h1, if_true] at h
        by_cases h2 : 2 < p
        · simp only [if_pos h2, Option.some.injEq, Prod.mk.injEq] at h
          obtain ⟨rfl, rfl⟩ := h
          exact ⟨hdp, .inr (by rw [hn]; exact h2)⟩
        · simp only [if_neg h2] at h
          split at h
          · rename_i a b' r' ha
            obtain ⟨g1, _⟩ := ih.parse _ _ _ _ (Nat.zero_le _) ha
            split at h
            · rename_i f r'' hf
              obtain ⟨g3, g4⟩ := ih.parse _ _ _ _ (by omega) hf
              rw [hn] at hs
              refine ih.loop p (.tern l a f) ts0 r'' e rest hp (by simp only [lev]; omega) ?_ ?_ h
              · simp only [der, lev]
                refine ⟨Nat.le_refl _, b, b', r, r', h1, der_mono hd ?_, g1, g3⟩
                by_cases hq : lev g l = 2
                · simp [hq, thr, hg.rtern] at hs
                · have := thr_le g (lev g l); omega
              · simp only [lev, thr, hg.rtern, if_true]; omega
            · simp at h
          · simp at h
      · have h1' : g.tern r = false := by simpa using h1
        simp only [h1', Bool.false_eq_true, if_false] at h
        refine hgo _ _ rfl ?_ h
        simp only [der]
        exact ⟨h1', b, hpost (by simp [next, h1'])⟩
    case lpar =>
      simp only [Pratt.loop, if_neg hnc] at h
      split at h
      · rename_i b' r'
        refine hgo _ _ rfl ?_ h
        simp only [der, ders]
        exact ⟨b, _, hpost rfl, trivial, b', rfl⟩
      · split at h
        · rename_i as r' ha
          obtain ⟨g1, g2⟩ := ih.args _ _ _ ha
          refine hgo _ _ rfl ?_ h
          simp only [der]
          refine ⟨b, r, hpost rfl, ?_⟩
          cases as with
          | nil => exact absurd rfl g1
          | cons a as => cases as <;> simpa only [ders] using g2
        · simp at h
    case lbr =>
      simp only [Pratt.loop, if_neg hnc] at h
      split at h
      · rename_i i b' r' hi
        obtain ⟨g1, _⟩ := ih.parse _ _ _ _ (Nat.zero_le _) hi
        refine hgo _ _ rfl ?_ h
        simp only [der]
        exact ⟨b, b', r, hpost rfl, g1⟩
      · simp at h
    case dot =>
      simp only [Pratt.loop, if_neg hnc] at h
      split at h
      · rename_i f b' r'
        refine hgo _ _ rfl ?_ h
        simp only [der]
        exact ⟨b, b', hpost rfl⟩
      · simp at h
    case arrow =>
      simp only [Pratt.loop, if_neg hnc] at h
      split at h
      · rename_i f b' r'
        refine hgo _ _ rfl ?_ h
        simp only [der]
        exact ⟨b, b', hpost rfl⟩
      · simp at h
    all_goals
      simp only [Pratt.loop, Option.some.injEq, Prod.mk.injEq] at h
      obtain ⟨rfl, rfl⟩ := h
      exact ⟨hdp, .inl rfl⟩

theorem next_le {g : G} (hg : WF g) (r : List Tok) : next g r ≤ g.call := by
  have hc : g.call = g.un + 1 := rfl
  have hu3 := hg.un
  cases r with
  | nil => simp [next]
  | cons t r =>
    obtain ⟨k, b⟩ := t
    cases k <;> simp only [next] <;> try omega
    · rename_i o
      have := hg.prec o
      split <;> (try split) <;> omega
    · split <;> omega

theorem parse_sound_step {g : G} (hg : WF g) {n : Nat} (ih : Sound g n) (p : Nat) (ts : List Tok)
    (e : Expr) (rest : List Tok) (hp : p ≤ g.un) (h : parseN g (n + 1) p ts = some (e, rest)) :
    der g e p ts rest ∧ (next g rest = 0 ∨ next g rest < p) := by
  have hc : g.call = g.un + 1 := rfl
  have hu3 := hg.un
  have htc : thr g g.call = g.call + 1 := by simp [thr, hg.rcall]
  have hgo : ∀ (l' : Expr) (r : List Tok), lev g l' = g.call → der g l' g.call ts r →
      Pratt.loop g n p l' r = some (e, rest) →
      der g e p ts rest ∧ (next g rest = 0 ∨ next g rest < p) := fun l' r hv hd' h' =>
    ih.loop p l' ts r e rest hp (by omega) (by rw [hv]; exact hd') (by
      rw [hv, htc]; have := next_le hg r; omega) h'
  cases ts with
  | nil => simp [parseN] at h
  | cons t r =>
    obtain ⟨k, b⟩ := t
    cases k
    case op o =>
      simp only [parseN] at h
      split at h
      · rename_i h1
        split at h
        · rename_i e' r' he
          obtain ⟨g1, g2⟩ := ih.parse _ _ _ _ (Nat.le_refl _) he
          refine ih.loop p (.un o e') _ r' e rest hp (by simpa only [lev] using hp) ?_ ?_ h
          · simp only [der, lev]
            exact ⟨Nat.le_refl _, h1, b, r, rfl, g1⟩
          · simp only [lev, thr, hg.run, if_true]; omega
        · simp at h
      · simp at h
    case num v =>
      simp only [parseN] at h
      exact hgo _ _ rfl (by simp only [der]; exact ⟨b, rfl⟩) h
    case ident x =>
      simp only [parseN] at h
      split at h
      · rename_i b' r'
        split at h
        · rename_i h1
          split at h
          · rename_i e' r'' he
            obtain ⟨g1, g2⟩ := ih.parse _ _ _ _ (Nat.zero_le _) he
            refine hgo _ _ rfl ?_ h
            simp only [der]
            exact ⟨h1, by omega, r', .inr ⟨x, b, b', rfl, rfl⟩, g1⟩
          · simp at h
        · rename_i h1
          refine hgo _ _ rfl ?_ h
          simp only [der]
          exact ⟨b, rfl, fun hx => absurd hx h1⟩
      · rename_i h1
        refine hgo _ _ rfl ?_ h
        simp only [der]
        exact ⟨b, rfl, fun _ b' r' => h1 b' r'⟩
    case lpar =>
      simp only [parseN] at h
      split at h
      · rename_i ps r' hl
        have hh : g.heur = true ∧ lamLook r = some (ps, r') := by
          split at hl
          · rename_i hx; exact ⟨hx, hl⟩
          · simp at hl
        split at h
        · rename_i e' r'' he
          obtain ⟨g1, g2⟩ := ih.parse _ _ _ _ (Nat.zero_le _) he
          refine hgo _ _ rfl ?_ h
          simp only [der]
          exact ⟨hh.1, by omega, r', .inl ⟨b, r, rfl, hh.2⟩, g1⟩
        · simp at h
      · rename_i hl
        split at h
        · rename_i x s r' hcl
          have hh : g.heur = true ∧ castLook r = some (x, s, r') := by
            split at hcl
            · rename_i hx; exact ⟨hx, hcl⟩
            · simp at hcl
          have hl' : lamLook r = none := by simpa [hh.1] using hl
          split at h
          · rename_i e' r'' he
            obtain ⟨g1, g2⟩ := ih.parse _ _ _ _ (Nat.le_refl _) he
            refine ih.loop p (.cast x s e') _ r'' e rest hp (by simpa only [lev] using hp) ?_ ?_ h
            · simp only [der, lev]
              exact ⟨Nat.le_refl _, hh.1, b, r, r', rfl, hl', hh.2, g1⟩
            · simp only [lev, thr, hg.run, if_true]; omega
          · simp at h
        · rename_i hcl
          split at h
          · rename_i e' b' r' he
            obtain ⟨g1, g2⟩ := ih.parse _ _ _ _ (Nat.zero_le _) he
            refine hgo _ _ rfl ?_ h
            simp only [der]
            exact ⟨b, b', r, rfl, fun hx => ⟨by simpa [hx] using hl, by simpa [hx] using hcl⟩, g1⟩
          · simp at h
    all_goals simp [parseN] at h

theorem sound {g : G} (hg : WF g) : ∀ n, Sound g n
  | 0 => ⟨fun _ _ _ _ _ h => by simp [parseN] at h, fun _ _ _ _ _ _ _ _ _ _ h => by simp [loop] at h,
      fun _ _ _ h => by simp [args] at h⟩
  | n + 1 => by
    have ih := sound hg n
    refine ⟨parse_sound_step hg ih, loop_sound hg ih, fun ts as rest h => ?_⟩
    simp only [args] at h
    split at h
    · rename_i e b r he
      obtain ⟨g1, _⟩ := ih.parse _ _ _ _ (Nat.zero_le _) he
      split at h
      · rename_i as' r' ha
        simp only [Option.some.injEq, Prod.mk.injEq] at h
        obtain ⟨rfl, rfl⟩ := h
        obtain ⟨g2, g3⟩ := ih.args _ _ _ ha
        refine ⟨by simp, ?_⟩
        cases as' with
        | nil => exact absurd rfl g2
        | cons a as' => simp only [ders]; exact ⟨b, r, g1, g3⟩
      · simp at h
    · rename_i e b r he
      obtain ⟨g1, _⟩ := ih.parse _ _ _ _ (Nat.zero_le _) he
      simp only [Option.some.injEq, Prod.mk.injEq] at h
      obtain ⟨rfl, rfl⟩ := h
      exact ⟨by simp, by simp only [ders]; exact ⟨b, g1⟩⟩
    · simp at h

/-- The parser and the grammar agree. -/
theorem parse_iff {g : G} (hg : WF g) (e : Expr) (ts rest : List Tok) :
    parse g ts = some (e, rest) ↔ der g e 0 ts rest ∧ next g rest = 0 := by
  refine ⟨fun h => ?_, fun h => parse_complete hg h.1 h.2⟩
  obtain ⟨g1, g2⟩ := (sound hg _).parse _ _ _ _ (Nat.zero_le _) h
  exact ⟨g1, by omega⟩

end Verif.Pratt
