import Verif.Async.Sim

/-! # Every step of the compiled program is a step of the expected one, or none -/

namespace Verif.Async
open Spec

section
variable {F B S : Type}

theorem set_same {α : Type} {l : List α} {i : Nat} {x : α} (h : l[i]? = some x) : l.set i x = l := by
  apply List.ext_getElem?
  intro j
  by_cases e : j = i
  · subst e; rw [get_set h, h]
  · rw [List.getElem?_set_ne (fun e' => e e'.symm)]

theorem not_joined {L : Nat} {P : Prog F B S} {own : Nat → Owner} {c : Cfg F B S} {σ : Spec.Cfg F B S}
    (R : Rel L P own c σ) {i : Nat} {th : Th F B} (hi : c.ths[i]? = some th)
    (hd : ∀ w, th.phase ≠ .done w) : i ∉ c.joins := by
  intro hin
  obtain ⟨t, w, e1, e2⟩ := R.joined i hin
  rw [hi] at e1; cases e1
  exact hd w e2

/-- The program has not ended. -/
theorem ended_spec {L : Nat} {P : Prog F B S} {own : Nat → Owner} {c : Cfg F B S} {σ : Spec.Cfg F B S}
    (R : Rel L P own c σ) : Spec.ended σ = c.ended := by
  have h0 := R.some0
  obtain ⟨t, ht⟩ : ∃ t, c.ths[0]? = some t := ⟨_, List.getElem?_eq_getElem h0⟩
  obtain ⟨s, hs⟩ : ∃ s, σ.ths[0]? = some s := ⟨_, List.getElem?_eq_getElem (by rw [← R.len]; exact h0)⟩
  have hr := R.th 0 t s ht hs
  have hm := (R.main 0 t ht).mpr rfl
  unfold ThRel at hr
  unfold Spec.ended Cfg.ended
  rw [ht, hs]
  simp only
  cases hp : t.phase with
  | enter => rw [hp] at hr; obtain ⟨_, f, vs, e, _⟩ := hr; rw [hm] at e; cases e
  | body b => rw [hp] at hr; rw [hr.2.2]
  | calling f a k => rw [hp] at hr; obtain ⟨_, _, b, vs, _, e, _⟩ := hr; rw [e]
  | joined p k => rw [hp] at hr; obtain ⟨_, _, v, _, _, e⟩ := hr; rw [e]
  | loaded v p k => rw [hp] at hr; rw [hr.2.2.2.2]
  | leave w => rw [hp] at hr; obtain ⟨_, f, vs, e, _⟩ := hr; rw [hm] at e; cases e
  | done w => rw [hp] at hr; obtain ⟨_, v, e, _⟩ := hr; rw [e]

/-- What one step may lead to. -/
def Fine (L : Nat) (P : Prog F B S) (σ : Spec.Cfg F B S) : Out (Cfg F B S) → Prop
  | .stuck => True
  | .ub => False
  | .ok c' => ∃ own' σ', Rel L P own' c' σ' ∧ (σ' = σ ∨ Spec.Step P σ σ')

theorem fine_quiet {L : Nat} {P : Prog F B S} {own' : Nat → Owner} {c : Cfg F B S} {σ : Spec.Cfg F B S}
    {i : Nat} {st : Spec.Th F B} {c' : Cfg F B S} (hsh : c.sh = σ.sh) (hs : σ.ths[i]? = some st)
    (h : Rel L P own' c' ⟨c.sh, σ.ths.set i st, σ.joins⟩) : Fine L P σ (.ok c') := by
  refine ⟨own', σ, ?_, Or.inl rfl⟩
  rw [set_same hs, hsh] at h
  exact h

theorem body_fine {L : Nat} (hL : L = 32 ∨ L = 64) {P : Prog F B S} {s : S} (T : Tame L P s)
    {own : Nat → Owner} {c : Cfg F B S} {σ : Spec.Cfg F B S} (hσ : Spec.Reach P s σ) (R : Rel L P own c σ)
    (hend : c.ended = false) {i p : Nat} {th : Th F B} {b : B} (hi : c.ths[i]? = some th)
    (hp : th.phase = .body b) : Fine L P σ (bodyStep L P c i p th b) := by
  obtain ⟨st, hs⟩ : ∃ s, σ.ths[i]? = some s :=
    ⟨_, List.getElem?_eq_getElem (by rw [← R.len]; exact (List.getElem?_eq_some_iff.mp hi).1)⟩
  have hr := R.th i th st hi hs
  have hend' : Spec.ended σ = false := by rw [ended_spec R]; exact hend
  have hd : ∀ w, th.phase ≠ .done w := by intro w e; rw [hp] at e; cases e
  have hnj := not_joined R hi hd
  unfold ThRel at hr
  rw [hp] at hr
  obtain ⟨hfn, hm, hst⟩ := hr
  obtain ⟨fn, st0⟩ := st
  simp only at hst hfn
  subst hst
  have hlive0 : ∀ (th' : Th F B) (q : Nat) (x : Cell) (o : Owner), c.heap q = some x → own q = o → o.tid = i →
      th'.fn = th.fn → th'.args = th.args → th'.res = th.res → (∀ w, th'.phase ≠ .done w) →
      LiveAt (c.ths.set i th') c.joins q o := by
    intro th' q x o hx ho ht e1 e2 e3 e4
    have hl := R.live q x hx
    rw [ho] at hl
    refine live_stay hl ht hi hnj e1 e2 (fun _ h => by rw [e3]; exact h) e4 ?_ ?_
    · intro f k hc; rw [hp] at hc; cases hc
    · intro hc
      rcases hc with ⟨k, hc⟩ | ⟨v, k, hc⟩ <;> · rw [hp] at hc; cases hc
  unfold bodyStep
  cases hn : P.next b with
  | step g =>
    refine ⟨own, _, move (sh' := (g c.sh).1) (st' := ⟨fn, .run (g c.sh).2⟩)
      (th' := { th with phase := .body (g c.sh).2 }) R hi hs rfl ?_ ?_ ?_ ?_ hd, Or.inr ?_⟩
    · exact ⟨hfn, hm, rfl⟩
    · intro q x h1 _; exact ⟨h1, rfl⟩
    · intro q x h1 _; exact ⟨h1, rfl⟩
    · intro q x h1 h2
      exact hlive0 _ q x _ h1 rfl h2 rfl rfl rfl (fun w hw => by cases hw)
    · have := Spec.Step.step (P := P) hend' hs hn
      rw [← R.sh] at this
      exact this
  | spawn f args k =>
    simp only
    split
    · trivial
    · rename_i hfree
      have hfree' : c.heap p = none := by
        cases hx : c.heap p with
        | none => rfl
        | some x => rw [hx] at hfree; exact absurd rfl hfree
      have hne : ∀ q x, c.heap q = some x → q ≠ p := by
        intro q x hq e; rw [e, hfree'] at hq; cases hq
      refine fine_quiet (i := i) (st := ⟨fn, .run b⟩) (own' := fun q => if q = p then .call i else own q) R.sh hs ?_
      refine move (sh' := c.sh) (st' := ⟨fn, .run b⟩) (th' := { th with phase := .calling f p k })
        R hi hs rfl ?_ ?_ ?_ ?_ hd
      · refine ⟨hfn, ?_, b, args, hn, rfl, ?_, ?_⟩
        · refine mem_frame hm (fun q x h1 _ _ _ => ?_)
          simp [put, hne q x h1, h1]
        · simp [put]
        · simp
      · intro q x h1 _
        simp [put, hne q x h1, h1]
      · intro q x h1 h2
        by_cases e : q = p
        · subst e; simp [Owner.tid] at h2
        · simp only [put, if_neg e] at h1 ⊢
          exact ⟨h1, trivial⟩
      · intro q x h1 h2
        by_cases e : q = p
        · rw [if_pos e]
          exact ⟨_, f, k, get_set hi, by rw [e]⟩
        · simp only [put, if_neg e] at h1 h2 ⊢
          exact hlive0 _ q x _ h1 rfl h2 rfl rfl rfl (fun w hw => by cases hw)
  | await op f h k =>
    obtain ⟨⟨sth, hσh⟩, hnj', hne, hcar⟩ := (T σ hσ i fn b hs).1 op f h k hn
    obtain ⟨t, ht⟩ : ∃ t, c.ths[h]? = some t :=
      ⟨_, List.getElem?_eq_getElem (by rw [R.len]; exact (List.getElem?_eq_some_iff.mp hσh).1)⟩
    have hnjh : h ∉ c.joins := by rw [R.joins]; exact hnj'
    simp only [ht]
    rw [if_neg (by intro hor; rcases hor with e | e; exact hnjh e; exact hne e)]
    cases htp : t.phase with
    | done w =>
      simp only
      have hrh := R.th h t _ ht hσh
      unfold ThRel at hrh
      rw [htp] at hrh
      obtain ⟨hfnh, v, e1, _, e3⟩ := hrh
      simp only at hfnh e1
      obtain ⟨hty, hres⟩ := e3 f hfnh
      have hres := hres hnjh
      subst e1
      have hspec : Spec.Step P σ ⟨σ.sh, σ.ths.set i ⟨fn, .run (k v)⟩, h :: σ.joins⟩ :=
        Spec.Step.await hend' hs hn hσh
      have hplain : boxes (P.ret f) = false → ∀ b', b' = k v →
          Fine L P σ (.ok { c.setPhase i th (.body b') with joins := h :: c.joins }) := by
        intro hb b' hb'
        refine ⟨own, _, moveJoin (th' := { th with phase := .body b' }) (st' := ⟨fn, .run (k v)⟩) R hi hs hp ht htp
          hne rfl rfl rfl (fun w hw => by cases hw) ?_ ?_ ?_, Or.inr hspec⟩
        · exact ⟨hfn, hm, by rw [hb']⟩
        · intro q x hx ho
          have hl := R.live q x hx
          rw [ho] at hl
          obtain ⟨t', g1, g2, _⟩ := hl
          rw [ht] at g1; cases g1
          unfold ResW at hres
          rw [hb] at hres
          rw [hres.1] at g2; cases g2
        · intro q x _; exact Or.inl rfl
      rcases handed hL hcar hty with ⟨hb, htk⟩ | ⟨hb, hv, htk, hu⟩ | ⟨hb, hv, htk, hu⟩
      · rw [htk]
        unfold ResW at hres
        rw [if_pos hb] at hres
        obtain ⟨q, r1, r2, r3, r4⟩ := hres
        subst r2
        simp only
        refine ⟨fun x => if x = q then .join i else own x, _, moveJoin (th' := { th with phase := .joined q k })
          (st' := ⟨fn, .run (k v)⟩) R hi hs hp ht htp hne rfl rfl rfl (fun w hw => by cases hw) ?_ ?_ ?_, Or.inr hspec⟩
        · refine ⟨hfn, ?_, v, r3, by simp, rfl⟩
          refine mem_frame hm (fun x y h1 h2 _ _ => ⟨h1, ?_⟩)
          have : x ≠ q := by
            intro e; rw [e, r4] at h2; exact hne h2
          simp [this]
        · intro x y hx
          by_cases e : x = q
          · simp [e]
          · simp only [if_neg e]
            intro ho
            have hl := R.live x y hx
            rw [ho] at hl
            obtain ⟨t', g1, g2, _⟩ := hl
            rw [ht] at g1; cases g1
            rw [r1] at g2; cases g2; exact e rfl
        · intro x y hx
          by_cases e : x = q
          · right
            subst e
            exact ⟨r4, by simp, k, rfl⟩
          · left; simp [e]
      · rw [htk]
        exact hplain hb _ (by rw [hu])
      · rw [htk]
        refine hplain hb _ ?_
        unfold ResW at hres
        rw [hb] at hres
        obtain ⟨_, r⟩ := hres
        rw [if_neg hv] at r
        rw [r, hu]
    | enter => trivial
    | body _ => trivial
    | calling _ _ _ => trivial
    | joined _ _ => trivial
    | loaded _ _ _ => trivial
    | leave _ => trivial
  | ret v =>
    simp only
    have hspec : Spec.Step P σ ⟨σ.sh, σ.ths.set i ⟨fn, .done v⟩, σ.joins⟩ := Spec.Step.ret hend' hs hn
    rw [← R.sh] at hspec
    cases hf : th.fn with
    | none =>
      simp only
      have hres0 : th.res = none := by unfold Mem at hm; rw [hf] at hm; exact hm
      refine ⟨own, _, move (sh' := c.sh) (st' := ⟨fn, .done v⟩) (th' := { th with phase := .done .null })
        R hi hs rfl ?_ ?_ ?_ ?_ hd, Or.inr hspec⟩
      · refine ⟨hfn, v, rfl, fun _ => hres0, fun f ef => ?_⟩
        rw [show ({ th with phase := .done .null } : Th F B).fn = th.fn from rfl, hf] at ef; cases ef
      · intro q x h1 _; exact ⟨h1, rfl⟩
      · intro q x h1 _; exact ⟨h1, rfl⟩
      · intro q x h1 h2
        have hl := R.live q x h1
        exfalso
        cases ho : own q with
        | args j =>
          rw [ho] at hl h2; obtain ⟨t', g1, g2, _⟩ := hl
          simp only [Owner.tid] at h2; subst h2
          rw [hi] at g1; cases g1; exact g2 hf
        | res j =>
          rw [ho] at hl h2; obtain ⟨t', g1, g2, _⟩ := hl
          simp only [Owner.tid] at h2; subst h2
          rw [hi] at g1; cases g1; rw [hres0] at g2; cases g2
        | call j =>
          rw [ho] at hl h2; obtain ⟨t', _, _, g1, g2⟩ := hl
          simp only [Owner.tid] at h2; subst h2
          rw [hi] at g1; cases g1; rw [hp] at g2; cases g2
        | join j =>
          rw [ho] at hl h2; obtain ⟨t', g1, g2⟩ := hl
          simp only [Owner.tid] at h2; subst h2
          rw [hi] at g1; cases g1
          rcases g2 with ⟨_, g2⟩ | ⟨_, _, g2⟩ <;> · rw [hp] at g2; cases g2
    | some f =>
      simp only
      have hty := (T σ hσ i fn b hs).2 f v (by rw [← hfn, hf]) hn
      unfold Mem at hm
      rw [hf] at hm
      simp only at hm
      obtain ⟨⟨⟨vs, ha⟩, hao⟩, hb⟩ := hm
      by_cases hbx : boxes (P.ret f) = true
      · rw [if_pos hbx] at hb
        obtain ⟨q, x0, r1, r2, r3⟩ := hb
        rw [r1]
        simp only [r2, Option.isSome_some, if_true]
        refine ⟨own, _, move (sh' := c.sh) (st' := ⟨fn, .done v⟩) (th' := { th with phase := .leave (.addr q) })
          R hi hs rfl ?_ ?_ ?_ ?_ hd, Or.inr hspec⟩
        · refine ⟨hfn, f, v, hf, hty, rfl, ⟨vs, ?_⟩, hao, ?_⟩
          · have : th.args ≠ q := by intro e; rw [e, r3] at hao; cases hao
            simp [put, this, ha]
          · unfold ResW
            rw [if_pos hbx]
            exact ⟨q, r1, rfl, by simp [put], r3⟩
        · intro y x h1 h2
          have : y ≠ q := by intro e; rw [e, r3] at h2; exact h2 rfl
          simp [put, this, h1]
        · intro y x h1 h2
          have : y ≠ q := by intro e; rw [e, r3] at h2; exact h2 rfl
          simp only [put, if_neg this] at h1
          exact ⟨h1, rfl⟩
        · intro y x h1 h2
          by_cases e : y = q
          · rw [e] at h2 ⊢
            exact hlive0 _ q _ _ r2 rfl h2 rfl rfl rfl (fun w hw => by cases hw)
          · simp only [put, if_neg e] at h1
            exact hlive0 _ y x _ h1 rfl h2 rfl rfl rfl (fun w hw => by cases hw)
      · rw [if_neg hbx] at hb
        rw [hb]
        simp only
        refine ⟨own, _, move (sh' := c.sh) (st' := ⟨fn, .done v⟩) (th' := { th with phase := .leave _ })
          R hi hs rfl ?_ ?_ ?_ ?_ hd, Or.inr hspec⟩
        · refine ⟨hfn, f, v, hf, hty, rfl, ⟨vs, ha⟩, hao, ?_⟩
          unfold ResW
          rw [if_neg hbx]
          exact ⟨hb, rfl⟩
        · intro q x h1 _; exact ⟨h1, rfl⟩
        · intro q x h1 _; exact ⟨h1, rfl⟩
        · intro y x h1 h2
          exact hlive0 _ y x _ h1 rfl h2 rfl rfl rfl (fun w hw => by cases hw)

theorem step_fine {L : Nat} (hL : L = 32 ∨ L = 64) {P : Prog F B S} {s : S} (T : Tame L P s)
    {own : Nat → Owner} {c : Cfg F B S} {σ : Spec.Cfg F B S} (hσ : Spec.Reach P s σ) (R : Rel L P own c σ)
    (i p : Nat) : Fine L P σ (step L P c i p) := by
  unfold step
  by_cases hend : c.ended = true
  · rw [if_pos hend]; trivial
  rw [if_neg hend]
  have hend : c.ended = false := by simpa using hend
  cases hi : c.ths[i]? with
  | none => trivial
  | some th =>
    simp only
    obtain ⟨st, hs⟩ : ∃ s, σ.ths[i]? = some s :=
      ⟨_, List.getElem?_eq_getElem (by rw [← R.len]; exact (List.getElem?_eq_some_iff.mp hi).1)⟩
    have hr := R.th i th st hi hs
    have hend' : Spec.ended σ = false := by rw [ended_spec R]; exact hend
    unfold ThRel at hr
    cases hp : th.phase with
    | body b => exact body_fine hL T hσ R hend hi hp
    | done w => trivial
    | enter =>
      rw [hp] at hr
      obtain ⟨hfn, f, vs, e1, e2, e3, e4, e5⟩ := hr
      have hd : ∀ w, th.phase ≠ .done w := by intro w e; rw [hp] at e; cases e
      have hnj := not_joined R hi hd
      have hlive0 : ∀ (th' : Th F B) (q : Nat) (x : Cell), c.heap q = some x → (own q).tid = i →
          th'.fn = th.fn → th'.args = th.args → (∀ w, th'.phase ≠ .done w) →
          LiveAt (c.ths.set i th') c.joins q (own q) := by
        intro th' q x hx ht g1 g2 g4
        refine live_stay (R.live q x hx) ht hi hnj g1 g2 (fun _ h => by rw [e2] at h; cases h) g4 ?_ ?_
        · intro f k hc; rw [hp] at hc; cases hc
        · intro hc
          rcases hc with ⟨k, hc⟩ | ⟨v, k, hc⟩ <;> · rw [hp] at hc; cases hc
      simp only [e1, e3]
      by_cases hb : boxes (P.ret f) = true
      · rw [if_pos hb]
        split
        · trivial
        · rename_i hfree
          have hfree' : c.heap p = none := by
            cases hx : c.heap p with
            | none => rfl
            | some x => rw [hx] at hfree; exact absurd rfl hfree
          have hne : ∀ q x, c.heap q = some x → q ≠ p := by
            intro q x hq e; rw [e, hfree'] at hq; cases hq
          refine fine_quiet (i := i) (own' := fun q => if q = p then .res i else own q) R.sh hs ?_
          have hth : { th with res := some p, phase := .body (P.start f vs) } =
            (⟨th.fn, th.args, some p, .body (P.start f vs)⟩ : Th F B) := rfl
          refine move (sh' := c.sh) (st' := st) (th' := ⟨some f, th.args, some p, .body (P.start f vs)⟩)
            R hi hs e1.symm ?_ ?_ ?_ ?_ hd
          · refine ⟨by rw [← hfn, e1], ?_, e5⟩
            unfold Mem
            simp only
            rw [if_pos hb]
            have ha := hne _ _ e3
            exact ⟨⟨⟨vs, by simp [put, ha, e3]⟩, by simp [ha, e4]⟩, p, none, rfl, by simp [put], by simp⟩
          · intro q x h1 _
            simp [put, hne q x h1, h1]
          · intro q x h1 h2
            by_cases e : q = p
            · subst e; simp [Owner.tid] at h2
            · simp only [put, if_neg e] at h1 ⊢
              exact ⟨h1, trivial⟩
          · intro q x h1 h2
            by_cases e : q = p
            · rw [if_pos e]
              exact ⟨_, get_set hi, by rw [e], hnj⟩
            · simp only [put, if_neg e] at h1 h2 ⊢
              exact hlive0 _ q x h1 h2 e1.symm rfl (fun w hw => by cases hw)
      · rw [if_neg hb]
        refine fine_quiet (i := i) (own' := own) R.sh hs ?_
        refine move (sh' := c.sh) (st' := st) (th' := { th with phase := .body (P.start f vs) })
          R hi hs rfl ?_ ?_ ?_ ?_ hd
        · refine ⟨hfn, ?_, e5⟩
          unfold Mem
          simp only [e1]
          rw [if_neg hb]
          exact ⟨⟨⟨vs, e3⟩, e4⟩, e2⟩
        · intro q x h1 _; exact ⟨h1, rfl⟩
        · intro q x h1 _; exact ⟨h1, rfl⟩
        · intro q x h1 h2
          exact hlive0 _ q x h1 h2 rfl rfl (fun w hw => by cases hw)
    | calling f a k =>
      rw [hp] at hr
      obtain ⟨hfn, hm, b, vs, e1, e2, e3, e4⟩ := hr
      obtain ⟨fn, st0⟩ := st
      simp only at e2 hfn
      subst e2
      refine ⟨_, _, moveNew R hi hs hp e1 e3, Or.inr ?_⟩
      exact Spec.Step.spawn hend' hs e1
    | joined q k =>
      rw [hp] at hr
      obtain ⟨hfn, hm, v, e1, e2, e3⟩ := hr
      have hd : ∀ w, th.phase ≠ .done w := by intro w e; rw [hp] at e; cases e
      have hnj := not_joined R hi hd
      simp only [e1]
      refine fine_quiet (i := i) (own' := own) R.sh hs ?_
      refine move (sh' := c.sh) (st' := st) (th' := { th with phase := .loaded v q k })
        R hi hs rfl ?_ ?_ ?_ ?_ hd
      · exact ⟨hfn, hm, ⟨_, e1⟩, e2, e3⟩
      · intro q x h1 _; exact ⟨h1, rfl⟩
      · intro q x h1 _; exact ⟨h1, rfl⟩
      · intro y x h1 h2
        refine live_stay (R.live y x h1) h2 hi hnj rfl rfl (fun _ h => h) (fun w hw => by cases hw) ?_ ?_
        · intro f k hc; rw [hp] at hc; cases hc
        · intro hc
          rcases hc with ⟨k', hc⟩ | ⟨v', k', hc⟩
          · rw [hp] at hc; cases hc
            exact Or.inr ⟨v, k, rfl⟩
          · rw [hp] at hc; cases hc
    | loaded v q k =>
      rw [hp] at hr
      obtain ⟨hfn, hm, ⟨x0, e1⟩, e2, e3⟩ := hr
      have hd : ∀ w, th.phase ≠ .done w := by intro w e; rw [hp] at e; cases e
      have hnj := not_joined R hi hd
      simp only [e1, Option.isSome_some, if_true]
      refine fine_quiet (i := i) (own' := own) R.sh hs ?_
      refine move (sh' := c.sh) (st' := st) (th' := { th with phase := .body (k v) })
        R hi hs rfl ?_ ?_ ?_ ?_ hd
      · refine ⟨hfn, mem_frame hm (fun y x h1 _ _ h3 => ?_), e3⟩
        have : y ≠ q := by intro e; rw [e] at h3; exact h3 i e2
        simp [put, this, h1]
      · intro y x h1 h2
        have : y ≠ q := by intro e; rw [e, e2] at h2; exact h2 rfl
        simp [put, this, h1]
      · intro y x h1 h2
        have : y ≠ q := by intro e; rw [e, e2] at h2; exact h2 rfl
        simp only [put, if_neg this] at h1
        exact ⟨h1, rfl⟩
      · intro y x h1 h2
        by_cases e : y = q
        · simp [put, e] at h1
        · simp only [put, if_neg e] at h1
          refine live_stay (R.live y x h1) h2 hi hnj rfl rfl (fun _ h => h) (fun w hw => by cases hw) ?_ ?_
          · intro f k hc; rw [hp] at hc; cases hc
          · intro hc
            rcases hc with ⟨k', hc⟩ | ⟨v', k', hc⟩
            · rw [hp] at hc; cases hc
            · rw [hp] at hc; cases hc; exact absurd rfl e
    | leave w =>
      rw [hp] at hr
      obtain ⟨hfn, f, v, e1, e2, e3, ⟨vs, e4⟩, e5, e6⟩ := hr
      have hd : ∀ w, th.phase ≠ .done w := by intro w e; rw [hp] at e; cases e
      have hnj := not_joined R hi hd
      simp only [e4, Option.isSome_some, if_true]
      refine fine_quiet (i := i) (own' := own) R.sh hs ?_
      refine move (sh' := c.sh) (st' := st) (th' := { th with phase := .done w })
        R hi hs rfl ?_ ?_ ?_ ?_ hd
      · refine ⟨hfn, v, e3, (fun h => ?_), (fun g hg => ?_)⟩
        · rw [show ({ th with phase := .done w } : Th F B).fn = th.fn from rfl, e1] at h; cases h
        · rw [show ({ th with phase := .done w } : Th F B).fn = th.fn from rfl, e1] at hg; cases hg
          refine ⟨e2, fun _ => ?_⟩
          refine resW_frame (th := { th with phase := .done w }) (hp := c.heap) (own := own) ?_ (fun y x h1 h2 => ?_)
          · exact e6
          · have : y ≠ th.args := by intro e; rw [e, e5] at h2; cases h2
            simp [put, this, h1]
      · intro y x h1 h2
        have : y ≠ th.args := by intro e; rw [e, e5] at h2; exact h2 rfl
        simp [put, this, h1]
      · intro y x h1 h2
        have : y ≠ th.args := by intro e; rw [e, e5] at h2; exact h2 rfl
        simp only [put, if_neg this] at h1
        exact ⟨h1, rfl⟩
      · intro y x h1 h2
        by_cases e : y = th.args
        · simp [put, e] at h1
        · simp only [put, if_neg e] at h1
          have hl := R.live y x h1
          cases ho : own y with
          | args j =>
            rw [ho] at hl h2; obtain ⟨t', g1, g2, g3, _⟩ := hl
            simp only [Owner.tid] at h2; subst h2
            rw [hi] at g1; cases g1; exact absurd g3.symm e
          | res j =>
            rw [ho] at hl h2; obtain ⟨t', g1, g2, g3⟩ := hl
            simp only [Owner.tid] at h2; subst h2
            rw [hi] at g1; cases g1
            exact ⟨_, get_set hi, g2, g3⟩
          | call j =>
            rw [ho] at hl h2; obtain ⟨t', _, _, g1, g2⟩ := hl
            simp only [Owner.tid] at h2; subst h2
            rw [hi] at g1; cases g1; rw [hp] at g2; cases g2
          | join j =>
            rw [ho] at hl h2; obtain ⟨t', g1, g2⟩ := hl
            simp only [Owner.tid] at h2; subst h2
            rw [hi] at g1; cases g1
            rcases g2 with ⟨_, g2⟩ | ⟨_, _, g2⟩ <;> · rw [hp] at g2; cases g2

end

end Verif.Async
