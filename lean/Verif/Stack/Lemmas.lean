import Verif.Stack.Model

/-! Helper lemmas for the stack model. -/

namespace Verif.Stack
open Verif
variable {α : Type}

/-- Stack `s` holds `l` (top first); `u` says the stack was used. -/
def Holds (s : Stack α) (l : List α) (u : Bool) : Prop :=
  s.len = l.length ∧ (u = true → 0 < s.cap) ∧
  ((s.null = true ∧ l = [] ∧ s.buf = []) ∨
   (s.null = false ∧ 0 < s.cap ∧ ∃ rest, s.buf = l.reverse.map some ++ rest ∧ s.cap = s.buf.length))

theorem holds_new : Holds (new : Stack α) [] false := by
  refine ⟨rfl, by simp, .inl ⟨rfl, rfl, rfl⟩⟩

theorem holds_free {s : Stack α} {l u} (h : Holds s l u) : Holds (free s) [] u :=
  ⟨rfl, h.2.1, .inl ⟨rfl, rfl, rfl⟩⟩

theorem holds_clear {s : Stack α} {l u} (h : Holds s l u) : Holds (clear s) [] u := by
  obtain ⟨_, h2, h3⟩ := h
  refine ⟨rfl, h2, ?_⟩
  rcases h3 with ⟨a, b, c⟩ | ⟨a, b, rest, c, d⟩
  · exact .inl ⟨a, rfl, c⟩
  · exact .inr ⟨a, b, s.buf, by simp [clear], d⟩

theorem push_holds {s : Stack α} {l u} (h : Holds s l u) (a : α) :
    ∃ w, push s a = .ok w ∧ Holds w (a :: l) true := by
  obtain ⟨h1, h2, h3⟩ := h
  have core : ∀ (b : Mem α) (cap : Nat) (rest : Mem α), b = l.reverse.map some ++ rest →
      cap = b.length → s.len < cap → ∃ w : Stack α,
      (do let buf ← Mem.store b s.len a
          pure (⟨false, buf, s.len + 1, cap⟩ : Stack α)) = Res.ok w ∧ Holds w (a :: l) true := by
    intro b cap rest hb hcap hlt
    have hlt' : s.len < b.length := by omega
    simp only [Mem.store, hlt', if_true, Res.ok_bind, Res.pure_eq]
    refine ⟨_, rfl, by simp [h1], fun _ => by simp; omega, .inr ⟨rfl, by simp; omega, rest.tail, ?_, ?_⟩⟩
    · cases rest with
      | nil => subst hb; simp at hlt'; omega
      | cons r rs =>
        subst hb
        simp only
        rw [List.set_append_right _ _ (by simp [h1])]
        simp [h1]
    · simpa using hcap
  unfold push
  rcases h3 with ⟨hn, hl, hb⟩ | ⟨hn, hpos, rest, hb, hcap⟩
  · have hlen : s.len = 0 := by rw [h1, hl]; rfl
    have := core (Mem.malloc 8) 8 (Mem.malloc 8) (by simp [hl]) (by simp [Mem.malloc]) (by omega)
    simp only [hn, if_true, hlen] at this ⊢
    simpa using this
  · simp only [hn, Bool.false_eq_true, if_false]
    by_cases he : s.len = s.cap
    · have hreal : Mem.realloc s.buf (s.cap * 2)
          = l.reverse.map some ++ (rest ++ List.replicate (s.cap * 2 - s.buf.length) none) := by
        unfold Mem.realloc
        rw [List.take_of_length_le (by omega), hb]; simp
      have := core (Mem.realloc s.buf (s.cap * 2)) (s.cap * 2) _ hreal
        (by rw [Mem.length_realloc _ _ (by omega)]) (by omega)
      simp only [he, if_true] at this ⊢
      simpa using this
    · have hle : s.len ≤ s.cap := by rw [hcap, hb]; simp [h1]
      have := core s.buf s.cap rest hb hcap (by omega)
      simp only [he, if_false, hn]
      exact this

theorem pop_holds {s : Stack α} {l u} (h : Holds s l u) :
    ∃ w, pop s = .ok (w, l.head?) ∧ Holds w l.tail u := by
  obtain ⟨h1, h2, h3⟩ := h
  unfold pop
  cases l with
  | nil =>
    simp only [List.length_nil] at h1
    simp only [h1, Nat.lt_irrefl, gt_iff_lt, if_false]
    exact ⟨s, rfl, h1, h2, h3⟩
  | cons a t =>
    simp only [List.length_cons] at h1
    have hpos : s.len > 0 := by omega
    simp only [hpos, if_true]
    rcases h3 with ⟨_, hl, _⟩ | ⟨hn, hp, rest, hb, hcap⟩
    · simp at hl
    · have hload : Mem.load s.buf (s.len - 1) = .ok a := by
        rw [Mem.load_ok_iff, hb, h1]
        rw [List.getElem?_append_left (by simp)]
        simp
      simp only [hload, Res.ok_bind, Res.pure_eq]
      refine ⟨_, rfl, by simp [h1], h2, .inr ⟨hn, hp, some a :: rest, ?_, hcap⟩⟩
      simp [hb]

theorem clone_holds (m0 : Bool) {s : Stack α} {l} (h : Holds s l true) :
    ∃ w, clone m0 s = .ok w ∧ Holds w l true := by
  obtain ⟨h1, h2, h3⟩ := h
  have hpos := h2 rfl
  have hcap0 : s.cap ≠ 0 := by omega
  unfold clone Mem.memcpy
  rcases h3 with ⟨hn, hl, hb⟩ | ⟨hn, _, rest, hb, hcap⟩
  · subst hl
    simp only [List.length_nil] at h1
    simp only [h1, if_true, Res.ok_bind, Res.pure_eq]
    exact ⟨_, rfl, by simp, h2, .inr ⟨by simp [hcap0], hpos, Mem.malloc s.cap, by simp, by simp [Mem.malloc]⟩⟩
  · by_cases h0 : s.len = 0
    · have : l = [] := by rw [← List.length_eq_zero_iff]; omega
      subst this
      simp only [h0, if_true, Res.ok_bind, Res.pure_eq]
      exact ⟨_, rfl, by simp, h2, .inr ⟨by simp [hcap0], hpos, Mem.malloc s.cap, by simp, by simp [Mem.malloc]⟩⟩
    · have hle : s.len ≤ s.cap := by rw [hcap, hb]; simp [h1]
      have hc : 0 + s.len ≤ (Mem.malloc s.cap : Mem α).length ∧ 0 + s.len ≤ s.buf.length := by
        simp [Mem.malloc]; omega
      simp only [h0, if_false, hc, and_self, if_true, Res.ok_bind, Res.pure_eq]
      refine ⟨_, rfl, h1, h2, .inr ⟨by simp [hcap0], hpos,
        (Mem.malloc s.cap : Mem α).drop (0 + s.len), ?_, ?_⟩⟩
      · simp only [List.take_zero, List.nil_append, List.drop_zero]
        congr 1
        rw [hb, h1, List.take_append_of_le_length (by simp), List.take_of_length_le (by simp)]
      · simp [Mem.malloc]; omega

/-- All named stacks hold the named lists. -/
def HoldsAll (s : Nat → Stack α) (t : Nat → List α) (u : Nat → Bool) : Prop :=
  ∀ i, Holds (s i) (t i) (u i)

theorem HoldsAll.upd {s : Nat → Stack α} {t : Nat → List α} {u : Nat → Bool} (h : HoldsAll s t u)
    (i : Nat) {v : Stack α} {l : List α} {b : Bool} (hv : Holds v l b) :
    HoldsAll (upd s i v) (upd t i l) (upd u i b) := by
  intro k
  unfold Stack.upd
  split
  · exact hv
  · exact h k

theorem HoldsAll.upd' {s : Nat → Stack α} {t : Nat → List α} {u : Nat → Bool} (h : HoldsAll s t u)
    (i : Nat) {v : Stack α} {l : List α} (hv : Holds v l (u i)) :
    HoldsAll (Stack.upd s i v) (Stack.upd t i l) u := by
  have := h.upd i hv
  have e : Stack.upd u i (u i) = u := by
    funext k; unfold Stack.upd; split
    · subst_vars; rfl
    · rfl
  rwa [e] at this

theorem step_refines (m0 : Bool) {s : Nat → Stack α} {t : Nat → List α} {u : Nat → Bool}
    (h : HoldsAll s t u) (op : Op α) (hc : ∀ i j, op = .clone i j → u i = true) :
    ∃ s', step m0 s op = .ok (s', (Spec.step t op).2) ∧
      HoldsAll s' (Spec.step t op).1 (Spec.used u op) := by
  cases op with
  | new i => exact ⟨_, rfl, h.upd i holds_new⟩
  | push i a =>
    obtain ⟨w, hw, hh⟩ := push_holds (h i) a
    exact ⟨_, by simp only [step, hw, Res.ok_bind, Res.pure_eq]; rfl, h.upd i hh⟩
  | pop i =>
    obtain ⟨w, hw, hh⟩ := pop_holds (h i)
    exact ⟨_, by simp only [step, hw, Res.ok_bind, Res.pure_eq]; rfl, h.upd' i hh⟩
  | clear i => exact ⟨_, rfl, h.upd' i (holds_clear (h i))⟩
  | free i => exact ⟨_, rfl, h.upd' i (holds_free (h i))⟩
  | clone i j =>
    have hi := hc i j rfl
    have hh := h i
    rw [hi] at hh
    obtain ⟨w, hw, hh⟩ := clone_holds m0 hh
    refine ⟨_, by simp only [step, hw, Res.ok_bind, Res.pure_eq]; rfl, ?_⟩
    rw [← hi] at hh
    exact h.upd j hh
  | length i => exact ⟨s, by simp [step, Spec.step, (h i).1], h⟩
  | isEmpty i =>
    refine ⟨s, ?_, h⟩
    simp only [step, Spec.step, (h i).1]
    cases t i <;> rfl

end Verif.Stack
