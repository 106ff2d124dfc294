import Verif.Pratt.Model

/-!
# The loop and the grammar agree
-/

namespace Verif.Pratt

open Spec

/-- what is assumed of a language -/
structure WF (g : G) : Prop where
  un : 3 ≤ g.un
  prec : ∀ o, g.prec o < g.un
  two : ∀ o, g.prec o ≠ 2
  rtern : g.right 2 = true
  run : g.right g.un = true
  rcall : g.right g.call = false

theorem zen_wf : WF zen := by
  constructor <;> first | decide | skip
  · intro o; rcases o with b | _ | b | _ | _ | _ | _ <;> (try cases b) <;> decide
  · intro o; rcases o with b | _ | b | _ | _ | _ | _ <;> (try cases b) <;> decide

theorem c_wf : WF cLang := by
  constructor <;> first | decide | skip
  · intro o; rcases o with b | _ | b | _ | _ | _ | _ <;> (try cases b) <;> decide
  · intro o; rcases o with b | _ | b | _ | _ | _ | _ <;> (try cases b) <;> decide

/-- operators from this level on are taken by the last operand -/
def thr (g : G) (q : Nat) : Nat := if g.right q then q else q + 1

theorem le_thr (g : G) (q : Nat) : q ≤ thr g q := by unfold thr; split <;> omega

theorem thr_le (g : G) (q : Nat) : thr g q ≤ q + 1 := by unfold thr; split <;> omega

theorem der_mono {g : G} {e : Expr} {p p' : Nat} {ts rest : List Tok} (h : der g e p ts rest)
    (hp : p' ≤ p) : der g e p' ts rest := by
  cases e <;> simp only [der] at h ⊢ <;> try exact h
  all_goals exact ⟨Nat.le_trans hp h.1, h.2⟩

theorem der_lev {g : G} {e : Expr} {p : Nat} {ts rest : List Tok} (h : der g e p ts rest) :
    der g e (lev g e) ts rest := by
  cases e <;> simp only [der, lev] at h ⊢ <;> try exact h
  all_goals exact ⟨Nat.le_refl _, h.2⟩

theorem lev_ge {g : G} {e : Expr} {p : Nat} {ts rest : List Tok} (h : der g e p ts rest)
    (hp : p ≤ g.call) : p ≤ lev g e := by
  cases e <;> simp only [der, lev] at h ⊢ <;> try exact hp
  all_goals exact h.1

theorem stars_length (ts : List Tok) : (stars ts).2.length ≤ ts.length := by
  induction ts with
  | nil => simp [stars]
  | cons t r ih =>
    unfold stars
    split
    · rename_i h; simp at h; obtain ⟨_, rfl⟩ := h; simp; omega
    · simp

theorem castLook_length {ts : List Tok} {q : Nat × Nat × List Tok} (h : castLook ts = some q) :
    q.2.2.length ≤ ts.length := by
  unfold castLook at h
  split at h
  · rename_i x b r
    have hl := stars_length r
    split at h
    · rename_i b' t r' hs
      rw [hs] at hl
      split at h
      · injection h with h; subst h; simp at *; omega
      · simp at h
    · simp at h
  · simp at h

theorem lamNames_length : ∀ {ts : List Tok} {q : List Nat × List Tok}, lamNames ts = some q →
    q.2.length ≤ ts.length
  | ts, q, h => by
    unfold lamNames at h
    split at h
    · rename_i x b b' r
      cases hr : lamNames r with
      | none => simp [hr] at h
      | some q' =>
        simp [hr] at h
        have := lamNames_length hr
        subst h; simp; omega
    · injection h with h; subst h; simp; omega
    · simp at h
termination_by ts => ts.length

theorem lamLook_length {ts : List Tok} {q : List Nat × List Tok} (h : lamLook ts = some q) :
    q.2.length ≤ ts.length := by
  unfold lamLook at h
  split at h
  · injection h with h; subst h; simp; omega
  · exact lamNames_length h

/-- the loop stops where nothing continues the expression -/
theorem loop_stop {g : G} {m p : Nat} {e : Expr} {rest : List Tok} (hm : 1 ≤ m) (hp : p ≤ g.un)
    (h : next g rest = 0 ∨ next g rest < p) : loop g m p e rest = some (e, rest) := by
  obtain ⟨m, rfl⟩ : ∃ k, m = k + 1 := ⟨m - 1, by omega⟩
  have hc : g.call = g.un + 1 := rfl
  cases rest with
  | nil => simp only [loop]
  | cons t r =>
    obtain ⟨k, b⟩ := t
    cases k
    case op o =>
      simp only [loop, next] at h ⊢
      by_cases h1 : (b && g.brk o) = true
      · simp [h1]
      · simp only [h1] at h ⊢
        by_cases h2 : isInc o = true
        · simp only [h2, if_true] at h
          simp at h; omega
        · simp only [h2] at h ⊢
          simp only [Bool.false_eq_true, if_false] at h ⊢
          rw [if_pos h]
    case quest =>
      simp only [loop, next] at h ⊢
      by_cases h1 : g.tern r = true
      · simp only [h1, if_true] at h ⊢
        have : 2 < p := by omega
        simp [this]
      · simp only [h1] at h
        simp at h; omega
    all_goals simp only [next] at h
    all_goals try (omega)
    all_goals simp only [loop]

theorem lev_pos {g : G} (hg : WF g) {e : Expr} {p : Nat} {ts rest : List Tok}
    (h : der g e p ts rest) : 1 ≤ lev g e := by
  have h3 := hg.un
  have hc : g.call = g.un + 1 := rfl
  cases e <;> simp only [der, lev] at h ⊢ <;> try omega

/-- reading a text of `e` leads to the loop with `e` -/
def Comp (g : G) (e : Expr) : Prop :=
  ∀ (p p' : Nat) (ts rest : List Tok) (n : Nat), der g e p ts rest → p' ≤ p → p' ≤ g.un →
    p ≤ g.call → next g rest < thr g (lev g e) → 3 * ts.length + 1 ≤ n →
    ∃ m, 3 * rest.length + 1 ≤ m ∧ parseN g n p' ts = loop g m p' e rest

/-- the same for arguments -/
def Comps (g : G) (as : Args) : Prop :=
  ∀ (ts rest : List Tok) (n : Nat), ders g as false ts rest → 3 * ts.length + 2 ≤ n →
    args g n ts = some (as, rest)

mutual
theorem der_length (g : G) : ∀ (e : Expr) (p : Nat) (ts rest : List Tok), der g e p ts rest →
    rest.length < ts.length
  | .id x, p, ts, rest, h => by
    obtain ⟨b, rfl, _⟩ := h; simp
  | .num v, p, ts, rest, h => by
    obtain ⟨b, rfl⟩ := h; simp
  | .par e, p, ts, rest, h => by
    simp only [der] at h
    obtain ⟨b, b', r, rfl, _, h⟩ := h
    have := der_length g e _ _ _ h
    simp at this ⊢; omega
  | .un o e, p, ts, rest, h => by
    simp only [der] at h
    obtain ⟨_, _, b, r, rfl, h⟩ := h
    have := der_length g e _ _ _ h
    simp at this ⊢; omega
  | .post o e, p, ts, rest, h => by
    simp only [der] at h
    obtain ⟨_, b, _, h⟩ := h
    have := der_length g e _ _ _ h
    simp at this ⊢; omega
  | .tryE e, p, ts, rest, h => by
    simp only [der] at h
    obtain ⟨_, b, h⟩ := h
    have := der_length g e _ _ _ h
    simp at this ⊢; omega
  | .bin o l r, p, ts, rest, h => by
    simp only [der] at h
    obtain ⟨_, _, _, b, m, _, h1, h2⟩ := h
    have := der_length g l _ _ _ h1
    have := der_length g r _ _ _ h2
    simp at *; omega
  | .tern c t f, p, ts, rest, h => by
    simp only [der] at h
    obtain ⟨_, b, b', m, m', _, h1, h2, h3⟩ := h
    have := der_length g c _ _ _ h1
    have := der_length g t _ _ _ h2
    have := der_length g f _ _ _ h3
    simp at *; omega
  | .call f as, p, ts, rest, h => by
    simp only [der] at h
    obtain ⟨b, m, h1, h2⟩ := h
    have := der_length g f _ _ _ h1
    have := ders_length g as _ _ _ h2
    simp at *; omega
  | .idx a i, p, ts, rest, h => by
    simp only [der] at h
    obtain ⟨b, b', m, h1, h2⟩ := h
    have := der_length g a _ _ _ h1
    have := der_length g i _ _ _ h2
    simp at *; omega
  | .mem ptr e f, p, ts, rest, h => by
    simp only [der] at h
    obtain ⟨b, b', h⟩ := h
    have := der_length g e _ _ _ h
    simp at this ⊢; omega
  | .cast x s e, p, ts, rest, h => by
    simp only [der] at h
    obtain ⟨_, _, b, r, m, rfl, _, hc, h⟩ := h
    have := der_length g e _ _ _ h
    have := castLook_length hc
    simp at *; omega
  | .lam ps e, p, ts, rest, h => by
    simp only [der] at h
    obtain ⟨_, _, m, hm, h⟩ := h
    have := der_length g e _ _ _ h
    rcases hm with ⟨b, r, rfl, hl⟩ | ⟨x, b, b', rfl, _⟩
    · have := lamLook_length hl
      simp at *; omega
    · simp at *; omega
theorem ders_length (g : G) : ∀ (as : Args) (first : Bool) (ts rest : List Tok),
    ders g as first ts rest → rest.length < ts.length
  | .nil, first, ts, rest, h => by
    obtain ⟨_, b, rfl⟩ := h; simp
  | .cons e .nil, first, ts, rest, h => by
    simp only [ders] at h
    obtain ⟨b, h⟩ := h
    have := der_length g e _ _ _ h
    simp at this; omega
  | .cons e (.cons e' as), first, ts, rest, h => by
    simp only [ders] at h
    obtain ⟨b, m, h1, h2⟩ := h
    have := der_length g e _ _ _ h1
    have := ders_length g (.cons e' as) _ _ _ (by simpa only [ders] using h2)
    simp at *; omega
end

end Verif.Pratt
