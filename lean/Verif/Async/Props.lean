import Verif.Async.Steps

/-! # Properties of `async` and `await` -/

namespace Verif.Async
open Spec

section
variable {F B S : Type}

theorem rel_init (L : Nat) (P : Prog F B S) (s : S) : Rel L P (fun _ => .args 0) (init P s) (Spec.init P s) := by
  constructor
  · rfl
  · rfl
  · rfl
  · intro i t st ht hs
    match i with
    | 0 =>
      cases ht; cases hs
      exact ⟨rfl, rfl, rfl⟩
    | j + 1 => cases ht
  · intro p x hx; cases hx
  · intro h hh; cases hh
  · intro i t ht
    match i with
    | 0 => cases ht; exact ⟨fun _ => rfl, fun _ => rfl⟩
    | j + 1 => cases ht
  · exact Nat.one_pos

theorem reach_rel {L : Nat} (hL : L = 32 ∨ L = 64) {P : Prog F B S} {s : S} (T : Tame L P s) {c : Cfg F B S}
    (h : Reach L P s c) : ∃ own σ, Spec.Reach P s σ ∧ Rel L P own c σ := by
  induction h with
  | init => exact ⟨_, _, .init, rel_init L P s⟩
  | step i p _ hst ih =>
    obtain ⟨own, σ, hσ, R⟩ := ih
    have hf := step_fine hL T hσ R i p
    rw [hst] at hf
    obtain ⟨own', σ', R', h | h⟩ := hf
    · subst h; exact ⟨own', _, hσ, R'⟩
    · exact ⟨own', σ', .step hσ h, R'⟩

/-- C88: whatever the schedule, the compiled program only reaches what the program without words and blocks can reach,
where a call starts a body with its arguments and `await` gives the value the body returned: the shared state is the same,
so are the bodies of all threads that are not in the middle of a call or an `await`, and main has returned in both or in
neither. -/
theorem await_partial {L : Nat} (hL : L = 32 ∨ L = 64) {P : Prog F B S} {s : S} (T : Tame L P s) {c : Cfg F B S}
    (h : Reach L P s c) : ∃ σ, Spec.Reach P s σ ∧ c.sh = σ.sh ∧ c.joins = σ.joins ∧ c.ended = Spec.ended σ ∧
      c.ths.length = σ.ths.length ∧
      ∀ (i : Nat) (t : Th F B) (b : B), c.ths[i]? = some t → t.phase = .body b →
        σ.ths[i]? = some ⟨t.fn, .run b⟩ := by
  obtain ⟨own, σ, hσ, R⟩ := reach_rel hL T h
  refine ⟨σ, hσ, R.sh, R.joins, (ended_spec R).symm, R.len, fun i t b ht hb => ?_⟩
  obtain ⟨st, hs⟩ : ∃ s, σ.ths[i]? = some s :=
    ⟨_, List.getElem?_eq_getElem (by rw [← R.len]; exact (List.getElem?_eq_some_iff.mp ht).1)⟩
  have hr := R.th i t st ht hs
  unfold ThRel at hr
  rw [hb] at hr
  obtain ⟨h1, _, h2⟩ := hr
  rw [hs]
  obtain ⟨fn, st0⟩ := st
  simp only at h1 h2
  rw [h1, h2]

/-- C89: no step of any thread uses a block that is not there, frees one twice, or joins a thread twice. -/
theorem memory_partial {L : Nat} (hL : L = 32 ∨ L = 64) {P : Prog F B S} {s : S} (T : Tame L P s) {c : Cfg F B S}
    (h : Reach L P s c) (i p : Nat) : step L P c i p ≠ .ub := by
  obtain ⟨own, σ, hσ, R⟩ := reach_rel hL T h
  intro e
  have hf := step_fine hL T hσ R i p
  rw [e] at hf
  exact hf

/-- C89: a block that is there belongs to a thread that has not returned or to a result that has not been awaited. -/
theorem kept_partial {L : Nat} (hL : L = 32 ∨ L = 64) {P : Prog F B S} {s : S} (T : Tame L P s) {c : Cfg F B S}
    (h : Reach L P s c) {p : Nat} {x : Cell} (hx : c.heap p = some x) :
    ∃ (i : Nat) (t : Th F B), c.ths[i]? = some t ∧ ((∀ w, t.phase ≠ .done w) ∨ (t.fn ≠ none ∧ i ∉ c.joins)) := by
  obtain ⟨own, σ, hσ, R⟩ := reach_rel hL T h
  have hl := R.live p x hx
  cases ho : own p with
  | args j => rw [ho] at hl; obtain ⟨t, h1, _, _, h2⟩ := hl; exact ⟨j, t, h1, Or.inl h2⟩
  | res j =>
    rw [ho] at hl; obtain ⟨t, h1, h2, h3⟩ := hl
    refine ⟨j, t, h1, ?_⟩
    by_cases hf : t.fn = none
    · obtain ⟨st, hs⟩ : ∃ s, σ.ths[j]? = some s :=
        ⟨_, List.getElem?_eq_getElem (by rw [← R.len]; exact (List.getElem?_eq_some_iff.mp h1).1)⟩
      have hr := R.th j t st h1 hs
      unfold ThRel at hr
      left
      intro w hw
      rw [hw] at hr
      obtain ⟨_, v, _, hn, _⟩ := hr
      rw [hn hf] at h2; cases h2
    · exact Or.inr ⟨hf, h3⟩
  | call j =>
    rw [ho] at hl; obtain ⟨t, f, k, h1, h2⟩ := hl
    exact ⟨j, t, h1, Or.inl (fun w hw => by rw [h2] at hw; cases hw)⟩
  | join j =>
    rw [ho] at hl; obtain ⟨t, h1, h2⟩ := hl
    refine ⟨j, t, h1, Or.inl (fun w hw => ?_)⟩
    rcases h2 with ⟨_, h2⟩ | ⟨_, _, h2⟩ <;> · rw [h2] at hw; cases hw

/-- C89: when all threads have returned and every future has been awaited, nothing is left on the heap. -/
theorem leak_free_partial {L : Nat} (hL : L = 32 ∨ L = 64) {P : Prog F B S} {s : S} (T : Tame L P s) {c : Cfg F B S}
    (h : Reach L P s c) (hd : ∀ (i : Nat) (t : Th F B), c.ths[i]? = some t → ∃ w, t.phase = .done w)
    (hj : ∀ (i : Nat) (t : Th F B), c.ths[i]? = some t → t.fn ≠ none → i ∈ c.joins) (p : Nat) :
    c.heap p = none := by
  cases hx : c.heap p with
  | none => rfl
  | some x =>
    obtain ⟨i, t, ht, h1 | ⟨h1, h2⟩⟩ := kept_partial hL T h hx
    · obtain ⟨w, hw⟩ := hd i t ht; exact absurd hw (h1 w)
    · exact absurd (hj i t ht h1) h2

/-- There is always room. -/
theorem room {L : Nat} {P : Prog F B S} {s : S} {c : Cfg F B S} (h : Reach L P s c) :
    ∃ n, ∀ p, n ≤ p → c.heap p = none := by
  have hput : ∀ (hp : Nat → Option Cell) (n q : Nat) (x : Option Cell), (∀ p, n ≤ p → hp p = none) →
      ∃ n', ∀ p, n' ≤ p → put hp q x p = none := by
    intro hp n q x hn
    refine ⟨max n (q + 1), fun p hp' => ?_⟩
    have h1 : p ≠ q := by omega
    simp only [put, if_neg h1]
    exact hn p (by omega)
  induction h with
  | init => exact ⟨0, fun _ _ => rfl⟩
  | @step c c' i p _ hst ih =>
    obtain ⟨n, hn⟩ := ih
    have hsame : c'.heap = c.heap → ∃ n, ∀ p, n ≤ p → c'.heap p = none := fun e => ⟨n, by rw [e]; exact hn⟩
    have hone : ∀ q x, c'.heap = put c.heap q x → ∃ n, ∀ p, n ≤ p → c'.heap p = none := by
      intro q x e
      rw [e]; exact hput _ n q x hn
    unfold step at hst
    split at hst
    · cases hst
    · cases hi : c.ths[i]? with
      | none => rw [hi] at hst; cases hst
      | some th =>
        rw [hi] at hst
        simp only at hst
        cases hp : th.phase with
        | enter =>
          rw [hp] at hst
          simp only at hst
          split at hst
          · split at hst
            · split at hst
              · cases hst
              · cases hst; exact hone _ _ rfl
            · cases hst; exact hsame rfl
          · cases hst
        | body b =>
          rw [hp] at hst
          simp only [bodyStep] at hst
          cases hnx : P.next b with
          | step g => rw [hnx] at hst; cases hst; exact hsame rfl
          | spawn f args k =>
            rw [hnx] at hst
            simp only at hst
            split at hst
            · cases hst
            · cases hst; exact hone _ _ rfl
          | await op f hh k =>
            rw [hnx] at hst
            simp only at hst
            split at hst
            · cases hst
            · split at hst
              · cases hst
              · split at hst
                · split at hst
                  · cases hst; exact hsame rfl
                  · cases hst; exact hsame rfl
                  · cases hst; exact hsame rfl
                  · split at hst
                    · cases hst; exact hsame rfl
                    · cases hst
                · cases hst
          | ret v =>
            rw [hnx] at hst
            simp only at hst
            split at hst
            · cases hst; exact hsame rfl
            · split at hst
              · split at hst
                · cases hst; exact hone _ _ rfl
                · cases hst
              · cases hst; exact hsame rfl
        | calling f a k => rw [hp] at hst; cases hst; exact hsame rfl
        | joined q k =>
          rw [hp] at hst
          simp only at hst
          split at hst
          · cases hst; exact hsame rfl
          · cases hst
        | loaded v q k =>
          rw [hp] at hst
          simp only at hst
          split at hst
          · cases hst; exact hone _ _ rfl
          · cases hst
        | leave w =>
          rw [hp] at hst
          simp only at hst
          split at hst
          · cases hst; exact hone _ _ rfl
          · cases hst
        | done w => rw [hp] at hst; cases hst

/-- C88: a thread that has not returned can go on, unless it waits for a thread that has not returned. -/
theorem goes_on {L : Nat} (hL : L = 32 ∨ L = 64) {P : Prog F B S} {s : S} (T : Tame L P s) {c : Cfg F B S}
    (h : Reach L P s c) (he : c.ended = false) {i : Nat} {t : Th F B} (ht : c.ths[i]? = some t)
    (hd : ∀ w, t.phase ≠ .done w)
    (hw : ∀ (b : B) op f h k (u : Th F B), t.phase = .body b → P.next b = .await op f h k → c.ths[h]? = some u →
      ∃ w, u.phase = .done w) : ∃ p c', step L P c i p = .ok c' := by
  obtain ⟨n, hn⟩ := room h
  have hfree : c.heap n = none := hn n (Nat.le_refl _)
  have hub := memory_partial hL T h i n
  refine ⟨n, ?_⟩
  cases hst : step L P c i n with
  | ok c' => exact ⟨c', rfl⟩
  | ub => exact absurd hst hub
  | stuck =>
    exfalso
    unfold step at hst
    rw [he] at hst
    simp only [Bool.false_eq_true, if_false, ht] at hst
    cases hp : t.phase with
    | enter =>
      rw [hp] at hst
      simp only [hfree] at hst
      split at hst
      · split at hst <;> simp at hst
      · cases hst
    | body b =>
      rw [hp] at hst
      simp only [bodyStep] at hst
      cases hnx : P.next b with
      | step g => rw [hnx] at hst; cases hst
      | spawn f args k => rw [hnx] at hst; simp [hfree] at hst
      | await op f hh k =>
        rw [hnx] at hst
        simp only at hst
        cases hu : c.ths[hh]? with
        | none => rw [hu] at hst; cases hst
        | some u =>
          obtain ⟨w, hw'⟩ := hw b op f hh k u hp hnx hu
          rw [hu] at hst
          simp only at hst
          split at hst
          · cases hst
          · rw [hw'] at hst
            simp only at hst
            split at hst
            · cases hst
            · cases hst
            · cases hst
            · split at hst <;> cases hst
      | ret v =>
        rw [hnx] at hst
        simp only at hst
        split at hst
        · cases hst
        · split at hst
          · split at hst <;> cases hst
          · cases hst
    | calling f a k => rw [hp] at hst; cases hst
    | joined q k =>
      rw [hp] at hst
      simp only at hst
      split at hst <;> cases hst
    | loaded v q k =>
      rw [hp] at hst
      simp only at hst
      split at hst <;> cases hst
    | leave w =>
      rw [hp] at hst
      simp only at hst
      split at hst <;> cases hst
    | done w => exact hd w hp

end

/-! ## A program -/

/-- The bodies of a program that adds two results. -/
inductive DB where
  | m0
  | m1 (a : Nat)
  | m2 (a b : Nat)
  | m3 (b : Nat) (x : Val)
  | m4 (x y : Val)
  | m5
  | sq (vs : List Val)

/-- The sum of two integers. -/
def add : Val → Val → Int
  | .int a, .int b => a + b
  | _, _ => 0

/-- The result of `sq`. -/
def sqv : List Val → Val
  | [.int 3] => .int 9
  | [.int 4] => .int 16
  | _ => .int 0

/-- `async fn sq(x: int) -> int { return x * x; }`, and main starts `sq(3)` and `sq(4)`, awaits both and adds. -/
def demo : Prog Unit DB Int where
  ret := fun _ => .int
  start := fun _ vs => .sq vs
  next
    | .m0 => .spawn () [.int 3] .m1
    | .m1 a => .spawn () [.int 4] (.m2 a)
    | .m2 a b => .await .var () a (.m3 b)
    | .m3 b x => .await .var () b (.m4 x)
    | .m4 x y => .step fun _ => (add x y, .m5)
    | .m5 => .ret .unit
    | .sq vs => .ret (sqv vs)
  entry := .m0

/-- A thread of `sq n` before or after its return. -/
def isSq (n r : Int) (t : Spec.Th Unit DB) : Prop :=
  t.fn = some () ∧ (t.st = .run (.sq [.int n]) ∨ t.st = .done (.int r))

/-- The states of the program. -/
def DemoInv (c : Spec.Cfg Unit DB Int) : Prop :=
  (c.ths = [⟨none, .run .m0⟩] ∧ c.joins = []) ∨
  (∃ a, c.ths = [⟨none, .run (.m1 1)⟩, a] ∧ isSq 3 9 a ∧ c.joins = []) ∨
  (∃ a b, c.ths = [⟨none, .run (.m2 1 2)⟩, a, b] ∧ isSq 3 9 a ∧ isSq 4 16 b ∧ c.joins = []) ∨
  (∃ a b, c.ths = [⟨none, .run (.m3 2 (.int 9))⟩, a, b] ∧ isSq 3 9 a ∧ isSq 4 16 b ∧ c.joins = [1]) ∨
  (∃ a b, c.ths = [⟨none, .run (.m4 (.int 9) (.int 16))⟩, a, b] ∧ isSq 3 9 a ∧ isSq 4 16 b) ∨
  (∃ a b, c.ths = [⟨none, .run .m5⟩, a, b] ∧ isSq 3 9 a ∧ isSq 4 16 b ∧ c.sh = 25) ∨
  (∃ a b, c.ths = [⟨none, .done .unit⟩, a, b] ∧ isSq 3 9 a ∧ isSq 4 16 b ∧ c.sh = 25)

/-- What thread `i` of three may be. -/
theorem three {α : Type} {a b d x : α} {i : Nat} (h : [a, b, d][i]? = some x) :
    (i = 0 ∧ x = a) ∨ (i = 1 ∧ x = b) ∨ (i = 2 ∧ x = d) := by
  match i with
  | 0 => cases h; exact Or.inl ⟨rfl, rfl⟩
  | 1 => cases h; exact Or.inr (Or.inl ⟨rfl, rfl⟩)
  | 2 => cases h; exact Or.inr (Or.inr ⟨rfl, rfl⟩)
  | j + 3 => cases h

theorem two {α : Type} {a b x : α} {i : Nat} (h : [a, b][i]? = some x) : (i = 0 ∧ x = a) ∨ (i = 1 ∧ x = b) := by
  match i with
  | 0 => cases h; exact Or.inl ⟨rfl, rfl⟩
  | 1 => cases h; exact Or.inr ⟨rfl, rfl⟩
  | j + 2 => cases h

theorem one {α : Type} {a x : α} {i : Nat} (h : [a][i]? = some x) : i = 0 ∧ x = a := by
  match i with
  | 0 => cases h; exact ⟨rfl, rfl⟩
  | j + 1 => cases h

/-- What a step of thread `i` does. -/
def After (c : Spec.Cfg Unit DB Int) (i : Nat) (fn : Option Unit) (b : DB) (c' : Spec.Cfg Unit DB Int) : Prop :=
  match b with
  | .m0 => c' = ⟨c.sh, c.ths.set i ⟨fn, .run (.m1 c.ths.length)⟩ ++ [⟨some (), .run (.sq [.int 3])⟩], c.joins⟩
  | .m1 a => c' = ⟨c.sh, c.ths.set i ⟨fn, .run (.m2 a c.ths.length)⟩ ++ [⟨some (), .run (.sq [.int 4])⟩], c.joins⟩
  | .m2 a b => ∃ fn' v, c.ths[a]? = some ⟨fn', .done v⟩ ∧ c' = ⟨c.sh, c.ths.set i ⟨fn, .run (.m3 b v)⟩, a :: c.joins⟩
  | .m3 b x => ∃ fn' v, c.ths[b]? = some ⟨fn', .done v⟩ ∧ c' = ⟨c.sh, c.ths.set i ⟨fn, .run (.m4 x v)⟩, b :: c.joins⟩
  | .m4 x y => c' = ⟨add x y, c.ths.set i ⟨fn, .run .m5⟩, c.joins⟩
  | .m5 => c' = ⟨c.sh, c.ths.set i ⟨fn, .done .unit⟩, c.joins⟩
  | .sq vs => c' = ⟨c.sh, c.ths.set i ⟨fn, .done (sqv vs)⟩, c.joins⟩

theorem after {c c' : Spec.Cfg Unit DB Int} (h : Spec.Step demo c c') :
    ∃ i fn b, c.ths[i]? = some ⟨fn, .run b⟩ ∧ After c i fn b c' := by
  cases h with
  | @step i fn b g _ hi hn =>
    refine ⟨i, fn, b, hi, ?_⟩
    cases b <;> simp only [demo] at hn <;> cases hn <;> rfl
  | @spawn i fn b f args k _ hi hn =>
    refine ⟨i, fn, b, hi, ?_⟩
    cases b <;> simp only [demo] at hn <;> cases hn <;> rfl
  | @await i fn b op f h k fn' v _ hi hn hh =>
    refine ⟨i, fn, b, hi, ?_⟩
    cases b <;> simp only [demo] at hn <;> cases hn <;> exact ⟨fn', v, hh, rfl⟩
  | @ret i fn b v _ hi hn =>
    refine ⟨i, fn, b, hi, ?_⟩
    cases b <;> simp only [demo] at hn <;> cases hn <;> rfl

theorem isSq_run {n r : Int} {t : Spec.Th Unit DB} {fn : Option Unit} {b : DB} (h : isSq n r t)
    (e : ⟨fn, .run b⟩ = t) : fn = some () ∧ b = .sq [.int n] := by
  subst e
  obtain ⟨h1, h2 | h2⟩ := h
  · cases h2; exact ⟨h1, rfl⟩
  · cases h2

theorem isSq_done {n r : Int} {t : Spec.Th Unit DB} {fn : Option Unit} {v : Val} (h : isSq n r t)
    (e : ⟨fn, .done v⟩ = t) : v = .int r := by
  subst e
  obtain ⟨_, h2 | h2⟩ := h
  · cases h2
  · cases h2; rfl

theorem sq3 : isSq 3 9 ⟨some (), .done (sqv [.int 3])⟩ := ⟨rfl, Or.inr rfl⟩
theorem sq4 : isSq 4 16 ⟨some (), .done (sqv [.int 4])⟩ := ⟨rfl, Or.inr rfl⟩

theorem demo_inv {c : Spec.Cfg Unit DB Int} (h : Spec.Reach demo 0 c) : DemoInv c := by
  induction h with
  | init => exact Or.inl ⟨rfl, rfl⟩
  | @step c c' _ hst ih =>
    obtain ⟨i, fn, b, hi, ha⟩ := after hst
    rcases ih with ⟨e, ej⟩ | ⟨x, e, hx, ej⟩ | ⟨x, y, e, hx, hy, ej⟩ | ⟨x, y, e, hx, hy, ej⟩ | ⟨x, y, e, hx, hy⟩ |
      ⟨x, y, e, hx, hy, es⟩ | ⟨x, y, e, hx, hy, es⟩
    · rw [e] at hi
      obtain ⟨rfl, e1⟩ := one hi
      cases e1
      simp only [After, e, ej] at ha
      subst ha
      exact Or.inr (Or.inl ⟨_, rfl, ⟨rfl, Or.inl rfl⟩, rfl⟩)
    · rw [e] at hi
      rcases two hi with ⟨rfl, e1⟩ | ⟨rfl, e1⟩
      · cases e1
        simp only [After, e, ej] at ha
        subst ha
        exact Or.inr (Or.inr (Or.inl ⟨_, _, rfl, hx, ⟨rfl, Or.inl rfl⟩, rfl⟩))
      · obtain ⟨rfl, rfl⟩ := isSq_run hx e1
        simp only [After, e, ej] at ha
        subst ha
        exact Or.inr (Or.inl ⟨_, rfl, sq3, rfl⟩)
    · rw [e] at hi
      rcases three hi with ⟨rfl, e1⟩ | ⟨rfl, e1⟩ | ⟨rfl, e1⟩
      · cases e1
        simp only [After, e, ej] at ha
        obtain ⟨fn', v, hv, rfl⟩ := ha
        cases isSq_done hx (Option.some.inj hv).symm
        exact Or.inr (Or.inr (Or.inr (Or.inl ⟨_, _, rfl, hx, hy, rfl⟩)))
      · obtain ⟨rfl, rfl⟩ := isSq_run hx e1
        simp only [After, e, ej] at ha
        subst ha
        exact Or.inr (Or.inr (Or.inl ⟨_, _, rfl, sq3, hy, rfl⟩))
      · obtain ⟨rfl, rfl⟩ := isSq_run hy e1
        simp only [After, e, ej] at ha
        subst ha
        exact Or.inr (Or.inr (Or.inl ⟨_, _, rfl, hx, sq4, rfl⟩))
    · rw [e] at hi
      rcases three hi with ⟨rfl, e1⟩ | ⟨rfl, e1⟩ | ⟨rfl, e1⟩
      · cases e1
        simp only [After, e, ej] at ha
        obtain ⟨fn', v, hv, rfl⟩ := ha
        cases isSq_done hy (Option.some.inj hv).symm
        exact Or.inr (Or.inr (Or.inr (Or.inr (Or.inl ⟨_, _, rfl, hx, hy⟩))))
      · obtain ⟨rfl, rfl⟩ := isSq_run hx e1
        simp only [After, e, ej] at ha
        subst ha
        exact Or.inr (Or.inr (Or.inr (Or.inl ⟨_, _, rfl, sq3, hy, rfl⟩)))
      · obtain ⟨rfl, rfl⟩ := isSq_run hy e1
        simp only [After, e, ej] at ha
        subst ha
        exact Or.inr (Or.inr (Or.inr (Or.inl ⟨_, _, rfl, hx, sq4, rfl⟩)))
    · rw [e] at hi
      rcases three hi with ⟨rfl, e1⟩ | ⟨rfl, e1⟩ | ⟨rfl, e1⟩
      · cases e1
        simp only [After, e] at ha
        subst ha
        exact Or.inr (Or.inr (Or.inr (Or.inr (Or.inr (Or.inl ⟨_, _, rfl, hx, hy, rfl⟩)))))
      · obtain ⟨rfl, rfl⟩ := isSq_run hx e1
        simp only [After, e] at ha
        subst ha
        exact Or.inr (Or.inr (Or.inr (Or.inr (Or.inl ⟨_, _, rfl, sq3, hy⟩))))
      · obtain ⟨rfl, rfl⟩ := isSq_run hy e1
        simp only [After, e] at ha
        subst ha
        exact Or.inr (Or.inr (Or.inr (Or.inr (Or.inl ⟨_, _, rfl, hx, sq4⟩))))
    · rw [e] at hi
      rcases three hi with ⟨rfl, e1⟩ | ⟨rfl, e1⟩ | ⟨rfl, e1⟩
      · cases e1
        simp only [After, e] at ha
        subst ha
        exact Or.inr (Or.inr (Or.inr (Or.inr (Or.inr (Or.inr ⟨_, _, rfl, hx, hy, es⟩)))))
      · obtain ⟨rfl, rfl⟩ := isSq_run hx e1
        simp only [After, e] at ha
        subst ha
        exact Or.inr (Or.inr (Or.inr (Or.inr (Or.inr (Or.inl ⟨_, _, rfl, sq3, hy, es⟩)))))
      · obtain ⟨rfl, rfl⟩ := isSq_run hy e1
        simp only [After, e] at ha
        subst ha
        exact Or.inr (Or.inr (Or.inr (Or.inr (Or.inr (Or.inl ⟨_, _, rfl, hx, sq4, es⟩)))))
    · rw [e] at hi
      rcases three hi with ⟨rfl, e1⟩ | ⟨rfl, e1⟩ | ⟨rfl, e1⟩
      · cases e1
      · obtain ⟨rfl, rfl⟩ := isSq_run hx e1
        simp only [After, e] at ha
        subst ha
        exact Or.inr (Or.inr (Or.inr (Or.inr (Or.inr (Or.inr ⟨_, _, rfl, sq3, hy, es⟩)))))
      · obtain ⟨rfl, rfl⟩ := isSq_run hy e1
        simp only [After, e] at ha
        subst ha
        exact Or.inr (Or.inr (Or.inr (Or.inr (Or.inr (Or.inr ⟨_, _, rfl, hx, sq4, es⟩)))))

/-- The program meets what is asked. -/
theorem demo_tame {L : Nat} : Tame L demo 0 := by
  intro c hc i fn b hi
  have hthr : ∀ {n r : Int} {x : Spec.Th Unit DB}, isSq n r x → (n = 3 ∨ n = 4) → ⟨fn, .run b⟩ = x →
      (∀ op f h k, demo.next b = .await op f h k → (∃ st, c.ths[h]? = some ⟨some f, st⟩) ∧ h ∉ c.joins ∧ h ≠ i ∧
        carried L op (demo.ret f) = true) ∧ (∀ f v, fn = some f → demo.next b = .ret v → HasTy (demo.ret f) v) := by
    intro n r x hx hn e
    obtain ⟨rfl, rfl⟩ := isSq_run hx e
    refine ⟨(fun op f h k e2 => by cases e2), (fun f v _ e2 => ?_)⟩
    cases e2
    rcases hn with rfl | rfl
    · exact ⟨9, rfl, by decide, by decide⟩
    · exact ⟨16, rfl, by decide, by decide⟩
  have hst : ∀ {n r : Int} {x : Spec.Th Unit DB}, isSq n r x → ∃ st, x = ⟨some (), st⟩ := by
    intro n r x hx
    obtain ⟨fn', st⟩ := x
    have := hx.1
    simp only at this
    exact ⟨st, by rw [this]⟩
  rcases demo_inv hc with ⟨e, ej⟩ | ⟨x, e, hx, ej⟩ | ⟨x, y, e, hx, hy, ej⟩ | ⟨x, y, e, hx, hy, ej⟩ | ⟨x, y, e, hx, hy⟩ |
    ⟨x, y, e, hx, hy, es⟩ | ⟨x, y, e, hx, hy, es⟩
  · rw [e] at hi
    obtain ⟨rfl, e1⟩ := one hi
    cases e1
    exact ⟨(fun op f h k e2 => by cases e2), (fun f v e2 _ => by cases e2)⟩
  · rw [e] at hi
    rcases two hi with ⟨rfl, e1⟩ | ⟨rfl, e1⟩
    · cases e1
      exact ⟨(fun op f h k e2 => by cases e2), (fun f v e2 _ => by cases e2)⟩
    · exact hthr hx (Or.inl rfl) e1
  · rw [e] at hi
    rcases three hi with ⟨rfl, e1⟩ | ⟨rfl, e1⟩ | ⟨rfl, e1⟩
    · cases e1
      refine ⟨(fun op f h k e2 => ?_), (fun f v e2 _ => by cases e2)⟩
      cases e2
      obtain ⟨st, rfl⟩ := hst hx
      exact ⟨⟨st, by rw [e]; rfl⟩, by rw [ej]; simp, by decide, rfl⟩
    · exact hthr hx (Or.inl rfl) e1
    · exact hthr hy (Or.inr rfl) e1
  · rw [e] at hi
    rcases three hi with ⟨rfl, e1⟩ | ⟨rfl, e1⟩ | ⟨rfl, e1⟩
    · cases e1
      refine ⟨(fun op f h k e2 => ?_), (fun f v e2 _ => by cases e2)⟩
      cases e2
      obtain ⟨st, rfl⟩ := hst hy
      exact ⟨⟨st, by rw [e]; rfl⟩, by rw [ej]; simp, by decide, rfl⟩
    · exact hthr hx (Or.inl rfl) e1
    · exact hthr hy (Or.inr rfl) e1
  all_goals
    rw [e] at hi
    rcases three hi with ⟨rfl, e1⟩ | ⟨rfl, e1⟩ | ⟨rfl, e1⟩
    · cases e1
      try exact ⟨(fun op f h k e2 => by cases e2), (fun f v e2 _ => by cases e2)⟩
    · exact hthr hx (Or.inl rfl) e1
    · exact hthr hy (Or.inr rfl) e1

/-- C88, for the program: however its threads are scheduled, main ends with 25. -/
theorem demo_sum {c : Cfg Unit DB Int} (h : Reach 64 demo 0 c) (he : c.ended = true) : c.sh = 25 := by
  obtain ⟨σ, hσ, h1, _, h2, _⟩ := await_partial (Or.inr rfl) demo_tame h
  rw [h1]
  rw [he] at h2
  unfold Spec.ended at h2
  rcases demo_inv hσ with ⟨e, _⟩ | ⟨x, e, _⟩ | ⟨x, y, e, _⟩ | ⟨x, y, e, _⟩ | ⟨x, y, e, _⟩ |
    ⟨x, y, e, hx, hy, es⟩ | ⟨x, y, e, hx, hy, es⟩
  all_goals first
    | exact es
    | (rw [e] at h2; cases h2)

/-- The shared state at the end of a run. -/
def final {F B S : Type} : Out (Cfg F B S) → Option S
  | .ok c => if c.ended then some c.sh else none
  | _ => none

/-- It does end: one schedule, with the addresses `malloc` gives. -/
example : final (run 64 demo [(0, 0), (0, 0), (0, 1), (0, 0), (2, 0), (2, 0), (2, 0), (1, 0), (1, 0), (1, 0),
    (0, 0), (0, 0), (0, 0), (0, 0)] (init demo 0)) = some 25 := by decide +kernel

/-! ## What is not handed over -/

/-- The bodies of a program that awaits one result. -/
inductive OB where
  | m0
  | m1 (a : Nat)
  | m2 (x : Val)
  | m3
  | f

/-- One function of type `t` that returns `v`; main stores what it gets. -/
def single (t : Ty) (op : Operand) (v : Val) : Prog Unit OB (Option Val) where
  ret := fun _ => t
  start := fun _ _ => .f
  next
    | .m0 => .spawn () [] .m1
    | .m1 a => .await op () a .m2
    | .m2 x => .step fun _ => (some x, .m3)
    | .m3 => .ret .unit
    | .f => .ret v
  entry := .m0

/-- The end of the only schedule of that program without a block to read, and the block at `q` then. -/
def outcome (L : Nat) (t : Ty) (op : Operand) (v : Val) (q : Nat) : Option (Option Val × Bool) :=
  match run L (single t op v) [(0, 0), (0, 0), (1, 1), (1, 0), (1, 0), (0, 0), (0, 0), (0, 0)]
    (init (single t op v) none) with
  | .ok c => if c.ended then some (c.sh, (c.heap q).isSome) else none
  | _ => none

example : outcome 64 .int .call (.int 5) 1 = some (some (.int 5), false) := by decide +kernel

/-- A struct goes through a block, which is free at the end. -/
example : (match run 64 (single (.named "Point") .call (.agg [1, 2])) [(0, 0), (0, 0), (1, 1), (1, 0), (1, 0), (0, 0), (0, 0),
    (0, 0), (0, 0), (0, 0)] (init (single (.named "Point") .call (.agg [1, 2])) none) with
  | .ok c => if c.ended then some (c.sh, (c.heap 0).isSome, (c.heap 1).isSome) else none
  | _ => none) = some (some (.agg [1, 2]), false, false) := by decide +kernel

/-- C88 fails for strings and pointers, C89 too: `await` gives the address of the block the runner made, not the string in
it, and the block stays. -/
theorem string_violated (v : Val) (op : Operand) :
    outcome 64 .string op v 1 = some (some (.ptr (.addr 1)), true) := by
  have hb : boxes .string = true := by decide +kernel
  have ht : takeOf (cname (awaitTy op .string)) = .raw := by cases op <;> decide +kernel
  simp [outcome, run, step, bodyStep, single, init, Cfg.ended, Cfg.setPhase, put, hb, ht]

theorem pointer_violated (v : Val) (op : Operand) :
    outcome 64 (.ptr (.named "Point")) op v 1 = some (some (.ptr (.addr 1)), true) := by
  have hb : boxes (.ptr (.named "Point")) = true := by decide +kernel
  have ht : takeOf (cname (awaitTy op (.ptr (.named "Point")))) = .raw := by cases op <;> decide +kernel
  simp [outcome, run, step, bodyStep, single, init, Cfg.ended, Cfg.setPhase, put, hb, ht]

/-- C88 fails for floating point numbers: the fraction is cut off. -/
theorem float_violated : outcome 64 .f64 .call (.flt 5 2) 1 = some (some (.flt 2 1), false) ∧
    outcome 64 .f32 .var (.flt 1 2) 1 = some (some (.flt 0 1), false) := by decide +kernel

/-- C88 fails for `i64`, `u64`, `usize` and `u32` awaited through a variable: they are taken for `int`. -/
theorem variable_violated : outcome 64 .i64 .var (.int (2 ^ 32)) 1 = some (some (.int 0), false) ∧
    outcome 64 .u64 .var (.int (2 ^ 32)) 1 = some (some (.int 0), false) ∧
    outcome 64 .usize .var (.int (2 ^ 32)) 1 = some (some (.int 0), false) ∧
    outcome 64 .u32 .var (.int (2 ^ 31)) 1 = some (some (.int (-2 ^ 31)), false) := by decide +kernel

/-- C88 fails for `i64` where `long` has 32 bits. -/
theorem long_violated : outcome 32 .i64 .call (.int (2 ^ 32)) 1 = some (some (.int 0), false) := by decide +kernel

/-- C88 fails for futures in fields or arrays: the word is taken for a pointer. -/
theorem other_violated (i : Int) (h : -2 ^ 31 ≤ i ∧ i < 2 ^ 31) :
    outcome 64 .int .other (.int i) 1 = some (some (.ptr (.bits i)), false) := by
  have e : outcome 64 .int .other (.int i) 1 = some (some (.ptr (.bits (wrap true 64 i))), false) := by
    have hb : boxes .int = false := by decide +kernel
    have ht : takeOf (cname (awaitTy .other .int)) = .raw := by decide +kernel
    have hz : zname .int ≠ "void" := by decide +kernel
    simp [outcome, run, step, bodyStep, single, init, Cfg.ended, Cfg.setPhase, put, hb, ht, hz, toLong]
  rw [e, wrap_s] <;> simp only [Nat.reducePow] <;> omega

/-- C88 fails for structs with names like `interval`: neither side makes a block, the struct is cast to `long`. -/
theorem name_violated : boxes (.named "interval") = false ∧
    takeOf (cname (awaitTy .call (.named "interval"))) = .long := by decide +kernel

/-- The bodies of a program that awaits a future twice. -/
inductive TB where
  | m0
  | m1 (a : Nat)
  | m2 (a : Nat) (x : Val)
  | m3
  | f

/-- `let a = f(); await a; await a;` -/
def twice (t : Ty) : Prog Unit TB Unit where
  ret := fun _ => t
  start := fun _ _ => .f
  next
    | .m0 => .spawn () [] .m1
    | .m1 a => .await .var () a (.m2 a)
    | .m2 a _ => .await .var () a fun _ => .m3
    | .m3 => .ret .unit
    | .f => .ret (.int 1)
  entry := .m0

/-- Undefined behaviour. -/
def Out.isUb {α : Type} : Out α → Bool
  | .ub => true
  | _ => false

/-- C89 fails if a future is awaited twice, which the compiler accepts: the thread is joined twice. -/
theorem twice_violated : (run 64 (twice .int) [(0, 0), (0, 0), (1, 1), (1, 0), (1, 0), (0, 0), (0, 0)]
    (init (twice .int) ())).isUb = true := by decide +kernel

/-! ## The fields of the block of arguments -/

/-- A parameter as the parser writes it: no comma in the type, which is not empty and does not begin with a blank; neither
comma nor blank in the name. -/
def PlainParam (p : List Char × List Char) : Prop :=
  ',' ∉ p.1 ∧ p.1.head? ≠ some ' ' ∧ ',' ∉ p.2 ∧ ' ' ∉ p.2

theorem pieces_run (acc xs rest : List Char) (h : ',' ∉ xs) : pieces acc (xs ++ rest) = pieces (xs.reverse ++ acc) rest := by
  induction xs generalizing acc with
  | nil => rfl
  | cons x xs ih =>
    have h1 : x ≠ ',' := fun e => h (by rw [e]; exact List.mem_cons_self)
    have h2 : ',' ∉ xs := fun e => h (List.mem_cons_of_mem _ e)
    rw [List.cons_append]
    rw [pieces, if_neg h1, ih _ h2, List.reverse_cons, List.append_assoc, List.singleton_append]

theorem field_plain {t n : List Char} (h1 : t.head? ≠ some ' ') (h2 : ' ' ∉ n) (pre : List Char)
    (hp : ∀ c ∈ pre, c = ' ') (ht : t ≠ []) : field (pre ++ (t ++ ' ' :: n)) = some (t, n) := by
  have hd : (pre ++ (t ++ ' ' :: n)).dropWhile (· = ' ') = t ++ ' ' :: n := by
    induction pre with
    | nil =>
      cases t with
      | nil => exact absurd rfl ht
      | cons c cs =>
        have : c ≠ ' ' := fun e => h1 (by rw [e]; rfl)
        simp [this]
    | cons x xs ih =>
      have hx := hp x List.mem_cons_self
      simp only [List.cons_append, List.dropWhile_cons, hx, decide_true, if_true]
      exact ih (fun c hc => hp c (List.mem_cons_of_mem _ hc))
  have hr : (t ++ ' ' :: n).reverse = n.reverse ++ ' ' :: t.reverse := by simp
  have hn : ∀ a ∈ n.reverse, (a != ' ') = true := by
    intro a ha
    simp only [bne_iff_ne, ne_eq]
    intro e
    exact h2 (by rw [← e]; simpa using ha)
  unfold field
  simp only [hd]
  rw [if_pos (by simp)]
  rw [hr, List.dropWhile_append_of_pos hn, List.takeWhile_append_of_pos hn]
  simp

/-- C88: the block of the arguments has one field for each parameter, in order and of its type. -/
theorem fields_partial (ps : List (List Char × List Char)) (h : ∀ p ∈ ps, PlainParam p ∧ p.1 ≠ []) :
    fields (paramText ps) = ps := by
  have key : ∀ (ps : List (List Char × List Char)) (pre : List Char), (∀ c ∈ pre, c = ' ') → ps ≠ [] →
      (∀ p ∈ ps, PlainParam p ∧ p.1 ≠ []) → (pieces [] (pre ++ paramText ps)).filterMap field = ps := by
    intro ps
    induction ps with
    | nil => intro pre _ hne; exact absurd rfl hne
    | cons p rest ih =>
      intro pre hpre _ hps
      obtain ⟨⟨a1, a2, a3, a4⟩, a5⟩ := hps p List.mem_cons_self
      obtain ⟨t, n⟩ := p
      simp only at a1 a2 a3 a4 a5
      have hcomma : ',' ∉ pre ++ (t ++ ' ' :: n) := by
        simp only [List.mem_append, List.mem_cons, not_or]
        exact ⟨(fun hc => by have := hpre _ hc; simp at this), a1, by decide, a3⟩
      cases rest with
      | nil =>
        have e : pre ++ paramText [(t, n)] = (pre ++ (t ++ ' ' :: n)) ++ [] := by simp [paramText]
        rw [e, pieces_run _ _ _ hcomma]
        unfold pieces
        have hne : ((pre ++ (t ++ ' ' :: n)).reverse ++ []).isEmpty = false := by simp
        rw [hne]
        simp only [Bool.false_eq_true, if_false, List.append_nil, List.reverse_reverse]
        rw [List.filterMap_cons, field_plain a2 a4 pre hpre a5]
        rfl
      | cons p2 rest2 =>
        have e : pre ++ paramText ((t, n) :: p2 :: rest2) =
            (pre ++ (t ++ ' ' :: n)) ++ ',' :: (' ' :: paramText (p2 :: rest2)) := by
          simp [paramText]
        rw [e, pieces_run _ _ _ hcomma]
        rw [pieces]
        have hne : ((pre ++ (t ++ ' ' :: n)).reverse ++ []).isEmpty = false := by simp
        rw [if_pos rfl, hne]
        simp only [Bool.false_eq_true, if_false, List.append_nil, List.reverse_reverse]
        rw [List.filterMap_cons, field_plain a2 a4 pre hpre a5]
        simp only
        have := ih [' '] (by simp) (by simp) (fun q hq => hps q (List.mem_cons_of_mem _ hq))
        rw [List.singleton_append] at this
        rw [this]
  cases ps with
  | nil => rfl
  | cons p rest =>
    have := key (p :: rest) [] (by simp) (by simp) h
    exact this

example : fields "int x, const char* s, Point* p".toList =
    [("int".toList, "x".toList), ("const char*".toList, "s".toList), ("Point*".toList, "p".toList)] := by decide +kernel

end Verif.Async
