import Verif.EvalOrder.Model

/-!
# Operands in any order give what is written

C172.  `value_ok_partial`: operands that do not depend on each other have the value that is written, in every order.
-/

namespace Verif.EvalOrder

variable {d : Den}

/-- Variables that an expression changes. -/
def C.wr : C → List Name
  | .val _ => []
  | .rd _ => []
  | .mv x => [x]
  | .post x => [x]
  | .bin _ a b => a.wr ++ b.wr
  | .sc a b => a.wr ++ b.wr
  | .call _ a => a.wr

/-- There is a call in it. -/
def C.calls : C → Bool
  | .val _ | .rd _ | .mv _ | .post _ => false
  | .bin _ a b => a.calls || b.calls
  | .sc a b => a.calls || b.calls
  | .call _ _ => true

/-- Operands that do not depend on each other. -/
def C.Sep : C → Prop
  | .bin _ a b => a.Sep ∧ b.Sep ∧ (∀ x ∈ a.wr, x ∉ b.ment) ∧ (∀ x ∈ b.wr, x ∉ a.ment) ∧ ¬ (a.calls = true ∧ b.calls = true)
  | .sc a b => a.Sep ∧ b.Sep
  | .call _ a => a.Sep
  | _ => True

/-- Evaluation from left to right. -/
def lr (d : Den) : C → Store → Val × Store × List Ev
  | .val v, s => (v, s, [])
  | .rd x, s => (s x, s, [])
  | .mv x, s => (s x, upd s x [0], [])
  | .post x, s => (s x, upd s x (inc (s x)), [])
  | .bin o a b, s =>
      (d.bin o (lr d a s).1 (lr d b (lr d a s).2.1).1, (lr d b (lr d a s).2.1).2.1, (lr d a s).2.2 ++ (lr d b (lr d a s).2.1).2.2)
  | .sc a b, s =>
      if truthy (lr d a s).1 then
        (d.bin .truth (lr d b (lr d a s).2.1).1 [], (lr d b (lr d a s).2.1).2.1, (lr d a s).2.2 ++ (lr d b (lr d a s).2.1).2.2)
      else ([0], (lr d a s).2.1, (lr d a s).2.2)
  | .call f a, s => (d.fn f (lr d a s).1, (lr d a s).2.1, (lr d a s).2.2 ++ [(f, (lr d a s).1)])

theorem wr_ment {x : Name} : ∀ e : C, x ∈ e.wr → x ∈ e.ment := by
  intro e
  induction e with
  | val => simp [C.wr]
  | rd => simp [C.wr]
  | mv => simp [C.wr, C.ment]
  | post => simp [C.wr, C.ment]
  | bin o a b iha ihb =>
      simp only [C.wr, C.ment, List.mem_append]
      exact fun h => h.elim (fun h => .inl (iha h)) (fun h => .inr (ihb h))
  | sc a b iha ihb =>
      simp only [C.wr, C.ment, List.mem_append]
      exact fun h => h.elim (fun h => .inl (iha h)) (fun h => .inr (ihb h))
  | call f a ih => exact ih

/-- Variables that are not changed. -/
theorem lr_keep {x : Name} : ∀ (e : C) (s : Store), x ∉ e.wr → (lr d e s).2.1 x = s x := by
  intro e
  induction e with
  | val => intros; rfl
  | rd => intros; rfl
  | mv y => intro s h; simp only [C.wr, List.mem_singleton] at h; simp [lr, upd, h]
  | post y => intro s h; simp only [C.wr, List.mem_singleton] at h; simp [lr, upd, h]
  | bin o a b iha ihb =>
      intro s h
      simp only [C.wr, List.mem_append, not_or] at h
      show (lr d b (lr d a s).2.1).2.1 x = s x
      rw [ihb _ h.2, iha _ h.1]
  | sc a b iha ihb =>
      intro s h
      simp only [C.wr, List.mem_append, not_or] at h
      simp only [lr]
      by_cases ht : truthy (lr d a s).1 = true
      · rw [if_pos ht]
        show (lr d b (lr d a s).2.1).2.1 x = s x
        rw [ihb _ h.2, iha _ h.1]
      · rw [if_neg ht]
        exact iha _ h.1
  | call f a ih => intro s h; exact ih s h

/-- Only the variables that are mentioned matter. -/
theorem lr_frame : ∀ (e : C) (s t : Store), (∀ x ∈ e.ment, s x = t x) →
    (lr d e s).1 = (lr d e t).1 ∧ (lr d e s).2.2 = (lr d e t).2.2 ∧ ∀ x, s x = t x → (lr d e s).2.1 x = (lr d e t).2.1 x := by
  intro e
  induction e with
  | val => exact fun s t _ => ⟨rfl, rfl, fun _ h => h⟩
  | rd x => exact fun s t h => ⟨h x (by simp [C.ment]), rfl, fun _ h => h⟩
  | mv x =>
      intro s t h
      refine ⟨h x (by simp [C.ment]), rfl, fun y hy => ?_⟩
      simp only [lr, upd]
      by_cases hyx : y = x
      · simp [hyx]
      · simp [hyx, hy]
  | post x =>
      intro s t h
      refine ⟨h x (by simp [C.ment]), rfl, fun y hy => ?_⟩
      simp only [lr, upd]
      by_cases hyx : y = x
      · simp [hyx, h x (by simp [C.ment])]
      · simp [hyx, hy]
  | bin o a b iha ihb =>
      intro s t h
      obtain ⟨h1, h2, h3⟩ := iha s t (fun x hx => h x (List.mem_append_left _ hx))
      obtain ⟨k1, k2, k3⟩ := ihb (lr d a s).2.1 (lr d a t).2.1 (fun x hx => h3 x (h x (List.mem_append_right _ hx)))
      refine ⟨?_, ?_, fun x hx => k3 x (h3 x hx)⟩
      · show d.bin o _ _ = d.bin o _ _
        rw [h1, k1]
      · show _ ++ _ = _ ++ _
        rw [h2, k2]
  | sc a b iha ihb =>
      intro s t h
      obtain ⟨h1, h2, h3⟩ := iha s t (fun x hx => h x (List.mem_append_left _ hx))
      obtain ⟨k1, k2, k3⟩ := ihb (lr d a s).2.1 (lr d a t).2.1 (fun x hx => h3 x (h x (List.mem_append_right _ hx)))
      simp only [lr]
      by_cases ht : truthy (lr d a s).1 = true
      · rw [if_pos ht, if_pos (by rw [← h1]; exact ht)]
        exact ⟨by rw [k1], by rw [h2, k2], fun x hx => k3 x (h3 x hx)⟩
      · rw [if_neg ht, if_neg (by rw [← h1]; exact ht)]
        exact ⟨rfl, h2, h3⟩
  | call f a ih =>
      intro s t h
      obtain ⟨h1, h2, h3⟩ := ih s t h
      exact ⟨by show d.fn f _ = d.fn f _; rw [h1], by show _ ++ [(f, _)] = _ ++ [(f, _)]; rw [h1, h2], h3⟩

theorem lr_nocall : ∀ (e : C) (s : Store), e.calls = false → (lr d e s).2.2 = [] := by
  intro e
  induction e with
  | val => intros; rfl
  | rd => intros; rfl
  | mv => intros; rfl
  | post => intros; rfl
  | bin o a b iha ihb =>
      intro s h
      simp only [C.calls, Bool.or_eq_false_iff] at h
      show _ ++ _ = []
      rw [iha _ h.1, ihb _ h.2]; rfl
  | sc a b iha ihb =>
      intro s h
      simp only [C.calls, Bool.or_eq_false_iff] at h
      simp only [lr]
      by_cases ht : truthy (lr d a s).1 = true
      · rw [if_pos ht]
        show _ ++ _ = []
        rw [iha _ h.1, ihb _ h.2]; rfl
      · rw [if_neg ht]
        exact iha _ h.1
  | call => intro s h; cases h

/-- What a step changes and keeps. -/
theorem step_local {s s' : Store} {e e' : C} {ev : List Ev} (h : Step d s e s' e' ev) :
    (∀ x ∈ e'.ment, x ∈ e.ment) ∧ (∀ x ∈ e'.wr, x ∈ e.wr) ∧ (e'.calls = true → e.calls = true) ∧
      (∀ x, x ∉ e.wr → s' x = s x) ∧ (e.calls = false → ev = []) := by
  induction h with
  | rd x => simp [C.ment, C.wr, C.calls]
  | mv x =>
      refine ⟨by simp [C.ment], by simp [C.wr], by simp [C.calls], fun y hy => ?_, fun _ => rfl⟩
      simp only [C.wr, List.mem_singleton] at hy
      simp [upd, hy]
  | post x =>
      refine ⟨by simp [C.ment], by simp [C.wr], by simp [C.calls], fun y hy => ?_, fun _ => rfl⟩
      simp only [C.wr, List.mem_singleton] at hy
      simp [upd, hy]
  | binL o b _ ih =>
      obtain ⟨i1, i2, i3, i4, i5⟩ := ih
      simp only [C.ment, C.wr, C.calls, List.mem_append, Bool.or_eq_true, Bool.or_eq_false_iff]
      exact ⟨fun x hx => hx.imp_left (i1 x), fun x hx => hx.imp_left (i2 x), fun h => h.imp_left i3,
        fun x hx => i4 x (fun h => hx (.inl h)), fun h => i5 h.1⟩
  | binR o a _ ih =>
      obtain ⟨i1, i2, i3, i4, i5⟩ := ih
      simp only [C.ment, C.wr, C.calls, List.mem_append, Bool.or_eq_true, Bool.or_eq_false_iff]
      exact ⟨fun x hx => hx.imp_right (i1 x), fun x hx => hx.imp_right (i2 x), fun h => h.imp_right i3,
        fun x hx => i4 x (fun h => hx (.inr h)), fun h => i5 h.2⟩
  | bin => simp [C.ment, C.wr, C.calls]
  | scL b _ ih =>
      obtain ⟨i1, i2, i3, i4, i5⟩ := ih
      simp only [C.ment, C.wr, C.calls, List.mem_append, Bool.or_eq_true, Bool.or_eq_false_iff]
      exact ⟨fun x hx => hx.imp_left (i1 x), fun x hx => hx.imp_left (i2 x), fun h => h.imp_left i3,
        fun x hx => i4 x (fun h => hx (.inl h)), fun h => i5 h.1⟩
  | scF => simp [C.ment, C.wr, C.calls]
  | scT => simp [C.ment, C.wr, C.calls]
  | callA f _ ih =>
      obtain ⟨i1, i2, i3, i4, i5⟩ := ih
      exact ⟨i1, i2, fun _ => rfl, i4, fun h => by cases h⟩
  | call => simp [C.ment, C.wr, C.calls]

theorem step_sep {s s' : Store} {e e' : C} {ev : List Ev} (h : Step d s e s' e' ev) : e.Sep → e'.Sep := by
  induction h with
  | rd => exact fun _ => trivial
  | mv => exact fun _ => trivial
  | post => exact fun _ => trivial
  | binL o b hs ih =>
      intro ⟨ha, hb, h1, h2, h3⟩
      obtain ⟨i1, i2, i3, _, _⟩ := step_local hs
      exact ⟨ih ha, hb, fun x hx => h1 x (i2 x hx), fun x hx hm => h2 x hx (i1 x hm), fun hc => h3 ⟨i3 hc.1, hc.2⟩⟩
  | binR o a hs ih =>
      intro ⟨ha, hb, h1, h2, h3⟩
      obtain ⟨i1, i2, i3, _, _⟩ := step_local hs
      exact ⟨ha, ih hb, fun x hx hm => h1 x hx (i1 x hm), fun x hx => h2 x (i2 x hx), fun hc => h3 ⟨hc.1, i3 hc.2⟩⟩
  | bin => exact fun _ => trivial
  | scL b hs ih => exact fun ⟨ha, hb⟩ => ⟨ih ha, hb⟩
  | scF => exact fun _ => trivial
  | scT v b _ =>
      exact fun ⟨_, hb⟩ => ⟨hb, trivial, fun x _ => by simp [C.ment], fun x hx => by simp [C.wr] at hx, by simp [C.calls]⟩
  | callA f hs ih => exact fun ha => ih ha
  | call => exact fun _ => trivial

/-- A step does not change what evaluation from left to right gives. -/
theorem step_lr {s s' : Store} {e e' : C} {ev : List Ev} (h : Step d s e s' e' ev) :
    e.Sep → lr d e s = ((lr d e' s').1, (lr d e' s').2.1, ev ++ (lr d e' s').2.2) := by
  induction h with
  | rd => exact fun _ => rfl
  | mv => exact fun _ => rfl
  | post => exact fun _ => rfl
  | binL o b hs ih =>
      intro ⟨ha, _⟩
      simp only [lr]
      rw [ih ha]
      simp only [List.append_assoc]
  | @binR b s' b' ev o a hs ih =>
      intro ⟨ha, hb, h1, h2, h3⟩
      obtain ⟨i1, i2, i3, i4, i5⟩ := step_local hs
      have ih := ih hb
      have hss : ∀ x ∈ a.ment, s x = s' x := fun x hx => (i4 x (fun hw => h2 x hw hx)).symm
      obtain ⟨a1, a2, a3⟩ := lr_frame (d := d) a s s' hss
      obtain ⟨b1, b2, b3⟩ := lr_frame (d := d) b (lr d a s).2.1 s
        (fun x hx => lr_keep a s (fun hw => h1 x hw hx))
      obtain ⟨c1, c2, c3⟩ := lr_frame (d := d) b' (lr d a s').2.1 s'
        (fun x hx => lr_keep a s' (fun hw => h1 x hw (i1 x hx)))
      have e1 : (lr d b (lr d a s).2.1).1 = (lr d b' (lr d a s').2.1).1 := by rw [b1, c1, ih]
      have e2 : (lr d b (lr d a s).2.1).2.2 = ev ++ (lr d b' (lr d a s').2.1).2.2 := by rw [b2, c2, ih]
      have e3 : (lr d b (lr d a s).2.1).2.1 = (lr d b' (lr d a s').2.1).2.1 := by
        funext x
        by_cases hx : x ∈ b.ment
        · have hxa : x ∉ a.wr := fun hw => h1 x hw hx
          rw [b3 x (lr_keep a s hxa), c3 x (lr_keep a s' hxa), ih]
        · have hxb : x ∉ b.wr := fun hw => hx (wr_ment b hw)
          have hxb' : x ∉ b'.wr := fun hw => hxb (i2 x hw)
          rw [lr_keep b _ hxb, lr_keep b' _ hxb']
          exact a3 x (i4 x hxb).symm
      simp only [lr]
      rw [a1, e1, e2, e3, a2]
      by_cases hca : a.calls = true
      · have : ev = [] := i5 (by
          cases hcb : b.calls
          · rfl
          · exact absurd ⟨hca, hcb⟩ h3)
        subst this
        rfl
      · rw [lr_nocall a s' (by simpa using hca)]
        rfl
  | bin => exact fun _ => rfl
  | scL b hs ih =>
      intro ⟨ha, _⟩
      simp only [lr]
      rw [ih ha]
      split <;> simp only [List.append_assoc]
  | scF v b hv => intro _; simp [lr, hv]
  | scT v b hv => intro _; simp [lr, hv]
  | callA f hs ih =>
      intro ha
      simp only [lr]
      rw [ih ha]
      simp only [List.append_assoc]
  | call => exact fun _ => rfl

theorem steps_lr {s s' : Store} {e e' : C} {evs : List Ev} (h : Steps d s e s' e' evs) :
    e.Sep → lr d e s = ((lr d e' s').1, (lr d e' s').2.1, evs ++ (lr d e' s').2.2) := by
  induction h with
  | refl => exact fun _ => rfl
  | head hs _ ih =>
      intro hsep
      rw [step_lr hs hsep, ih (step_sep hs hsep)]
      simp only [List.append_assoc]

/-! ## From the source -/

section
variable (drop : Name → Bool)

theorem gen_ment (x : Name) : ∀ e : Src, x ∈ (gen drop e).ment ↔ Spec.Mentions x e := by
  intro e
  induction e with
  | num => simp [gen, C.ment, Spec.Mentions]
  | var y => by_cases h : drop y = true <;> simp [gen, h, C.ment, Spec.Mentions]
  | fld => simp [gen, C.ment, Spec.Mentions]
  | post => simp [gen, C.ment, Spec.Mentions]
  | bin o a b iha ihb => simp only [gen, C.ment, Spec.Mentions, List.mem_append, iha, ihb]
  | sc a b iha ihb => simp only [gen, C.ment, Spec.Mentions, List.mem_append, iha, ihb]
  | call f a ih => exact ih

theorem gen_wr (x : Name) : ∀ e : Src, x ∈ (gen drop e).wr ↔ (drop x = true ∧ Spec.Moves x e) ∨ Spec.Incs x e := by
  intro e
  induction e with
  | num => simp [gen, C.wr, Spec.Moves, Spec.Incs]
  | var y =>
      simp only [gen, Spec.Moves, Spec.Incs, or_false]
      by_cases h : drop y = true
      · simp only [h, if_true, C.wr, List.mem_singleton]
        exact ⟨fun e => ⟨e ▸ h, e⟩, And.right⟩
      · simp only [if_neg h, C.wr]
        exact ⟨fun h => absurd h (by simp), fun ⟨h1, h2⟩ => absurd (h2 ▸ h1) h⟩
  | fld => simp [gen, C.wr, Spec.Moves, Spec.Incs]
  | post => simp [gen, C.wr, Spec.Moves, Spec.Incs]
  | bin o a b iha ihb =>
      simp only [gen, C.wr, Spec.Moves, Spec.Incs, List.mem_append, iha, ihb]
      constructor
      · rintro ((⟨h1, h2⟩ | h) | (⟨h1, h2⟩ | h))
        · exact .inl ⟨h1, .inl h2⟩
        · exact .inr (.inl h)
        · exact .inl ⟨h1, .inr h2⟩
        · exact .inr (.inr h)
      · rintro (⟨h1, h2 | h2⟩ | (h | h))
        · exact .inl (.inl ⟨h1, h2⟩)
        · exact .inr (.inl ⟨h1, h2⟩)
        · exact .inl (.inr h)
        · exact .inr (.inr h)
  | sc a b iha ihb =>
      simp only [gen, C.wr, Spec.Moves, Spec.Incs, List.mem_append, iha, ihb]
      constructor
      · rintro ((⟨h1, h2⟩ | h) | (⟨h1, h2⟩ | h))
        · exact .inl ⟨h1, .inl h2⟩
        · exact .inr (.inl h)
        · exact .inl ⟨h1, .inr h2⟩
        · exact .inr (.inr h)
      · rintro (⟨h1, h2 | h2⟩ | (h | h))
        · exact .inl (.inl ⟨h1, h2⟩)
        · exact .inr (.inl ⟨h1, h2⟩)
        · exact .inl (.inr h)
        · exact .inr (.inr h)
  | call f a ih => exact ih

theorem gen_posts (x : Name) : ∀ e : Src, x ∈ (gen drop e).posts ↔ Spec.Incs x e := by
  intro e
  induction e with
  | num => simp [gen, C.posts, Spec.Incs]
  | var y => by_cases h : drop y = true <;> simp [gen, h, C.posts, Spec.Incs]
  | fld => simp [gen, C.posts, Spec.Incs]
  | post => simp [gen, C.posts, Spec.Incs]
  | bin o a b iha ihb => simp only [gen, C.posts, Spec.Incs, List.mem_append, iha, ihb]
  | sc a b iha ihb => simp only [gen, C.posts, Spec.Incs, List.mem_append, iha, ihb]
  | call f a ih => exact ih

theorem gen_calls : ∀ e : Src, (gen drop e).calls = true ↔ Spec.Calls e := by
  intro e
  induction e with
  | num => simp [gen, C.calls, Spec.Calls]
  | var y => by_cases h : drop y = true <;> simp [gen, h, C.calls, Spec.Calls]
  | fld => simp [gen, C.calls, Spec.Calls]
  | post => simp [gen, C.calls, Spec.Calls]
  | bin o a b iha ihb => simp only [gen, C.calls, Spec.Calls, Bool.or_eq_true, iha, ihb]
  | sc a b iha ihb => simp only [gen, C.calls, Spec.Calls, Bool.or_eq_true, iha, ihb]
  | call f a ih => simp [gen, C.calls, Spec.Calls]

theorem gen_sep : ∀ e : Src, Spec.Apart drop e → (gen drop e).Sep := by
  intro e
  induction e with
  | num => exact fun _ => trivial
  | var y => intro _; simp only [gen]; split <;> trivial
  | fld => exact fun _ => trivial
  | post => exact fun _ => trivial
  | bin o a b iha ihb =>
      intro ⟨ha, hb, h1, h2, h3⟩
      refine ⟨iha ha, ihb hb, fun x hx hm => ?_, fun x hx hm => ?_, fun hc => ?_⟩
      · exact h1 x ((gen_wr drop x a).mp hx) ((gen_ment drop x b).mp hm)
      · exact h2 x ((gen_wr drop x b).mp hx) ((gen_ment drop x a).mp hm)
      · exact h3 ⟨(gen_calls drop a).mp hc.1, (gen_calls drop b).mp hc.2⟩
  | sc a b iha ihb => exact fun ⟨ha, hb, _⟩ => ⟨iha ha, ihb hb⟩
  | call f a ih => exact fun h => ih h

theorem truthy_iff (v : Val) : truthy v = true ↔ ∃ n ∈ v, n ≠ 0 := by
  simp [truthy, List.any_eq_true]

theorem bin_truth (v w : Val) : d.bin .truth v w = [if ∃ n ∈ v, n ≠ 0 then 1 else 0] := by
  simp only [Den.bin]
  by_cases h : truthy v = true
  · rw [if_pos h, if_pos ((truthy_iff v).mp h)]
  · rw [if_neg h, if_neg (fun hh => h ((truthy_iff v).mpr hh))]

theorem eval_keep {x : Name} : ∀ (e : Src) (s : Store), ¬ Spec.Mentions x e → (Spec.eval d e s).2.1 x = s x := by
  intro e
  induction e with
  | num => intros; rfl
  | var => intros; rfl
  | fld => intros; rfl
  | post y => intro s h; simp only [Spec.Mentions] at h; simp [Spec.eval, h]
  | bin o a b iha ihb =>
      intro s h
      simp only [Spec.Mentions, not_or] at h
      show (Spec.eval d b (Spec.eval d a s).2.1).2.1 x = s x
      rw [ihb _ h.2, iha _ h.1]
  | sc a b iha ihb =>
      intro s h
      simp only [Spec.Mentions, not_or] at h
      simp only [Spec.eval]
      split
      · show (Spec.eval d b (Spec.eval d a s).2.1).2.1 x = s x
        rw [ihb _ h.2, iha _ h.1]
      · exact iha _ h.1
  | call f a ih => intro s h; exact ih s h

/-- Variables afterwards: as the meaning says, apart from those that were given away and are zero. -/
def Spec.After (e : Src) (s t : Store) : Prop :=
  ∀ x, t x = s x ∨ (drop x = true ∧ Spec.Moves x e ∧ t x = [0])

theorem after_step {a b : Src} {s1 t1 : Store} (ha : Spec.After drop a t1 s1)
    (hfree : ∀ x, drop x = true → Spec.Moves x a → ¬ Spec.Mentions x b)
    (ihb : ∀ s, (lr d (gen drop b) s).1 = (Spec.eval d b s).1 ∧ (lr d (gen drop b) s).2.2 = (Spec.eval d b s).2.2 ∧
      Spec.After drop b (Spec.eval d b s).2.1 (lr d (gen drop b) s).2.1) :
    (lr d (gen drop b) s1).1 = (Spec.eval d b t1).1 ∧ (lr d (gen drop b) s1).2.2 = (Spec.eval d b t1).2.2 ∧
      ∀ x, (lr d (gen drop b) s1).2.1 x = (Spec.eval d b t1).2.1 x ∨
        (drop x = true ∧ (Spec.Moves x a ∨ Spec.Moves x b) ∧ (lr d (gen drop b) s1).2.1 x = [0]) := by
  have hag : ∀ x, Spec.Mentions x b → s1 x = t1 x := by
    intro x hx
    rcases ha x with h | ⟨h1, h2, _⟩
    · exact h
    · exact absurd hx (hfree x h1 h2)
  obtain ⟨f1, f2, f3⟩ := lr_frame (d := d) (gen drop b) s1 t1 (fun x hx => hag x ((gen_ment drop x b).mp hx))
  obtain ⟨g1, g2, g3⟩ := ihb t1
  refine ⟨f1.trans g1, f2.trans g2, fun x => ?_⟩
  by_cases hx : Spec.Mentions x b
  · rw [f3 x (hag x hx)]
    rcases g3 x with h | ⟨h1, h2, h3⟩
    · exact .inl h
    · exact .inr ⟨h1, .inr h2, h3⟩
  · rw [eval_keep b t1 hx, lr_keep (gen drop b) s1 (fun hw => hx ((gen_ment drop x b).mp (wr_ment _ hw)))]
    rcases ha x with h | ⟨h1, h2, h3⟩
    · exact .inl h
    · exact .inr ⟨h1, .inl h2, h3⟩

theorem lr_eval : ∀ (e : Src), Spec.Apart drop e → ∀ s : Store,
    (lr d (gen drop e) s).1 = (Spec.eval d e s).1 ∧ (lr d (gen drop e) s).2.2 = (Spec.eval d e s).2.2 ∧
      Spec.After drop e (Spec.eval d e s).2.1 (lr d (gen drop e) s).2.1 := by
  intro e
  induction e with
  | num n => exact fun _ s => ⟨rfl, rfl, fun x => .inl rfl⟩
  | var y =>
      intro _ s
      by_cases h : drop y = true
      · simp only [gen, h, if_true, lr, Spec.eval]
        refine ⟨trivial, trivial, fun x => ?_⟩
        by_cases hx : x = y
        · exact .inr ⟨hx ▸ h, hx, by simp [upd, hx]⟩
        · exact .inl (by simp [upd, hx])
      · simp only [gen, if_neg h, Spec.eval, lr]
        exact ⟨trivial, trivial, fun x => .inl rfl⟩
  | fld => exact fun _ s => ⟨rfl, rfl, fun x => .inl rfl⟩
  | post => exact fun _ s => ⟨rfl, rfl, fun x => .inl rfl⟩
  | bin o a b iha ihb =>
      intro ⟨ha, hb, h1, _, _⟩ s
      obtain ⟨a1, a2, a3⟩ := iha ha s
      obtain ⟨b1, b2, b3⟩ := after_step drop a3 (fun x hx hm => h1 x (.inl ⟨hx, hm⟩)) (ihb hb)
      refine ⟨?_, ?_, fun x => b3 x⟩
      · show d.bin o (lr d (gen drop a) s).1 (lr d (gen drop b) (lr d (gen drop a) s).2.1).1 = _
        rw [a1, b1]
        cases o
        · rfl
        · rfl
        · exact bin_truth _ _
      · show (lr d (gen drop a) s).2.2 ++ (lr d (gen drop b) (lr d (gen drop a) s).2.1).2.2 = _
        rw [a2, b2]
        rfl
  | sc a b iha ihb =>
      intro ⟨ha, hb, h1⟩ s
      obtain ⟨a1, a2, a3⟩ := iha ha s
      obtain ⟨b1, b2, b3⟩ := after_step drop a3 h1 (ihb hb)
      simp only [gen, lr, Spec.eval]
      by_cases ht : truthy (lr d (gen drop a) s).1 = true
      · rw [if_pos ht, if_pos (by rw [← a1]; exact (truthy_iff _).mp ht)]
        refine ⟨?_, ?_, fun x => b3 x⟩
        · rw [b1]
          exact bin_truth (d := d) _ []
        · rw [a2, b2]
      · rw [if_neg ht, if_neg (by rw [← a1]; exact fun h => ht ((truthy_iff _).mpr h))]
        refine ⟨rfl, a2, fun x => ?_⟩
        rcases a3 x with h | ⟨h1, h2, h3⟩
        · exact .inl h
        · exact .inr ⟨h1, .inl h2, h3⟩
  | call f a ih =>
      intro ha s
      obtain ⟨a1, a2, a3⟩ := ih ha s
      exact ⟨by show d.fn f _ = d.fn f _; rw [a1], by show _ ++ [(f, _)] = _ ++ [(f, _)]; rw [a1, a2], a3⟩

/-- C172, as far as it holds: if no operand gives away or counts up a variable that another operand mentions, and at most one operand of each operator
makes calls, then whatever order the C compiler chooses, the value and the calls are those that are written, and afterwards the variables have the values
that they should have, apart from those that were given away, which are zero.  Missing: other expressions, see the theorems `..._violated`. -/
theorem value_ok_partial {e : Src} (h : Spec.Apart drop e) {s t : Store} {v : Val} {evs : List Ev}
    (hr : Steps d s (gen drop e) t (.val v) evs) :
    v = (Spec.eval d e s).1 ∧ evs = (Spec.eval d e s).2.2 ∧ Spec.After drop e (Spec.eval d e s).2.1 t := by
  have h1 := steps_lr hr (gen_sep drop e h)
  obtain ⟨e1, e2, e3⟩ := lr_eval drop e h s (d := d)
  have h2 : lr d (gen drop e) s = (v, t, evs) := by
    rw [h1]
    simp [lr]
  rw [h2] at e1 e2 e3
  exact ⟨e1, e2, e3⟩

/-- Such expressions have no undefined behaviour. -/
theorem no_ub : ∀ {e : Src}, Spec.Apart drop e → ¬ (gen drop e).Ub := by
  intro e
  induction e with
  | num => exact fun _ h => h
  | var y => intro _; simp only [gen]; split <;> exact fun h => h
  | fld => exact fun _ h => h
  | post => exact fun _ h => h
  | bin o a b iha ihb =>
      rintro ⟨ha, hb, h1, h2, _⟩ (h | h | ⟨x, ⟨hp, hm⟩ | ⟨hp, hm⟩⟩)
      · exact iha ha h
      · exact ihb hb h
      · exact h1 x (.inr ((gen_posts drop x a).mp hp)) ((gen_ment drop x b).mp hm)
      · exact h2 x (.inr ((gen_posts drop x b).mp hp)) ((gen_ment drop x a).mp hm)
  | sc a b iha ihb =>
      rintro ⟨ha, hb, _⟩ (h | h)
      · exact iha ha h
      · exact ihb hb h
  | call f a ih => exact fun h => ih h

end

/-! ## Evaluation ends -/

/-- Steps that are left at most. -/
def size : C → Nat
  | .val _ => 0
  | .rd _ | .mv _ | .post _ => 1
  | .bin _ a b => size a + size b + 1
  | .sc a b => size a + size b + 2
  | .call _ a => size a + 1

theorem step_size {s s' : Store} {e e' : C} {ev : List Ev} (h : Step d s e s' e' ev) : size e' < size e := by
  induction h <;> simp only [size] <;> omega

theorem progress : ∀ (e : C) (s : Store), (∃ v, e = .val v) ∨ ∃ s' e' ev, Step d s e s' e' ev := by
  intro e
  induction e with
  | val v => exact fun s => .inl ⟨v, rfl⟩
  | rd x => exact fun s => .inr ⟨_, _, _, .rd s x⟩
  | mv x => exact fun s => .inr ⟨_, _, _, .mv s x⟩
  | post x => exact fun s => .inr ⟨_, _, _, .post s x⟩
  | bin o a b iha ihb =>
      intro s
      rcases iha s with ⟨v, rfl⟩ | ⟨_, _, _, h⟩
      · rcases ihb s with ⟨w, rfl⟩ | ⟨_, _, _, h⟩
        · exact .inr ⟨_, _, _, .bin s o v w⟩
        · exact .inr ⟨_, _, _, .binR o _ h⟩
      · exact .inr ⟨_, _, _, .binL o b h⟩
  | sc a b iha _ =>
      intro s
      rcases iha s with ⟨v, rfl⟩ | ⟨_, _, _, h⟩
      · cases hv : truthy v
        · exact .inr ⟨_, _, _, .scF s v b hv⟩
        · exact .inr ⟨_, _, _, .scT s v b hv⟩
      · exact .inr ⟨_, _, _, .scL b h⟩
  | call f a ih =>
      intro s
      rcases ih s with ⟨v, rfl⟩ | ⟨_, _, _, h⟩
      · exact .inr ⟨_, _, _, .call s f v⟩
      · exact .inr ⟨_, _, _, .callA f h⟩

theorem steps_snoc {s s' s'' : Store} {e e' e'' : C} {evs evs' : List Ev} (h : Steps d s e s' e' evs) :
    Steps d s' e' s'' e'' evs' → Steps d s e s'' e'' (evs ++ evs') := by
  induction h with
  | refl => exact id
  | head hs _ ih => intro h2; rw [List.append_assoc]; exact .head hs (ih h2)

/-- However an evaluation was begun, it can be brought to its end, and no evaluation goes on for ever (`step_size`). -/
theorem ends (e : C) (s : Store) : ∃ t v evs, Steps d s e t (.val v) evs := by
  induction hn : size e using Nat.strongRecOn generalizing e s with
  | _ n ih =>
      rcases progress (d := d) e s with ⟨v, rfl⟩ | ⟨s', e', ev, h⟩
      · exact ⟨s, v, [], .refl s _⟩
      · obtain ⟨t, v, evs, h2⟩ := ih (size e') (hn ▸ step_size h) e' s' rfl
        exact ⟨t, v, ev ++ evs, .head h h2⟩

/-! ## A sample, and what goes wrong -/

/-- `f(x, i++, g(i))` is not among the expressions above, `f(x, i++, g(y.n))` is. -/
theorem sample (f g : Nat) : Spec.Apart (fun x => x == "x" || x == "y")
    (.call f (.bin .args (.var "x") (.bin .args (.post "i") (.call g (.fld "y"))))) ∧
    ¬ Spec.Apart (fun x => x == "x" || x == "y")
      (.call f (.bin .args (.var "x") (.bin .args (.post "i") (.call g (.var "i"))))) := by
  constructor
  · refine ⟨trivial, ⟨trivial, trivial, ?_, ?_, ?_⟩, ?_, ?_, ?_⟩
    · intro x hx; simp [Spec.Moves, Spec.Incs, Spec.Mentions] at *; rw [hx]; decide
    · intro x hx; simp [Spec.Moves, Spec.Incs] at hx
    · simp [Spec.Calls]
    · intro x hx; simp [Spec.Moves, Spec.Incs, Spec.Mentions] at *; rw [hx.2]; decide
    · intro x hx; simp [Spec.Moves, Spec.Incs, Spec.Mentions] at *; rw [hx]; decide
    · simp [Spec.Calls]
  · rintro ⟨_, ⟨_, _, h, _⟩, _⟩
    exact h "i" (.inr rfl) rfl

/-- C172 is violated: in `f(x.n, x)` with a destructor for the type of `x`, which the checker accepts, a compiler that evaluates the second argument
first passes 0 for `x.n`, whatever it was. -/
theorem moved_argument_violated (f : Nat) (n : Int) :
    accepted (· == "x") "x" (.call f (.bin .args (.fld "x") (.var "x"))) = true ∧
    (Spec.eval d (.call f (.bin .args (.fld "x") (.var "x"))) (fun _ => [n])).2.2 = [(f, [n, n])] ∧
    ∃ t v, Steps d (fun _ => [n]) (gen (· == "x") (.call f (.bin .args (.fld "x") (.var "x")))) t (.val v) [(f, [0, n])] := by
  refine ⟨by simp [accepted, conv, Move.accepts, Move.chkS, Move.chkL, Move.chkE, Move.chkArgs, Move.markRv, Move.markMoved, Move.lookup, Move.getM,
    Move.setM, Move.putM], rfl, upd (fun _ => [n]) "x" [0], d.fn f [0, n], ?_⟩
  have e1 := Step.callA (d := d) f (Step.binR .args (.rd "x") (Step.mv (fun _ => [n]) "x"))
  have e2 := Step.callA (d := d) f (Step.binL .args (.val [n]) (Step.rd (upd (fun _ => [n]) "x" [0]) "x"))
  have e3 := Step.callA (d := d) f (Step.bin (upd (fun _ => [n]) "x" [0]) .args [0] [n])
  have e4 := Step.call (d := d) (upd (fun _ => [n]) "x" [0]) f [0, n]
  have hx : upd (fun _ => [n]) "x" [0] "x" = [0] := rfl
  rw [hx] at e2
  exact .head e1 (.head e2 (.head e3 (.head e4 (.refl _ _))))

/-- C172 is violated: a value whose type is `Copy` and has a destructor is zeroed by the first call, although it was copied; `f(x) && x.n` is then false
in every order. -/
theorem copy_violated (f : Nat) (n : Int) (hn : n ≠ 0) (hf : truthy (d.fn f [n]) = true) :
    accepted (fun _ => false) "x" (.sc (.call f (.var "x")) (.fld "x")) = true ∧
    (Spec.eval d (.sc (.call f (.var "x")) (.fld "x")) (fun _ => [n])).1 = [1] ∧
    ∀ t v evs, Steps d (fun _ => [n]) (gen (· == "x") (.sc (.call f (.var "x")) (.fld "x"))) t (.val v) evs → v = [0] := by
  refine ⟨by simp [accepted, conv, Move.accepts, Move.chkS, Move.chkL, Move.chkE, Move.chkArgs, Move.markRv, Move.markMoved, Move.lookup, Move.getM], ?_,
    ?_⟩
  · have h1 := (truthy_iff _).mp hf
    simp only [Spec.eval, h1, if_true]
    simp [hn]
  · intro t v evs h
    have := steps_lr h ⟨trivial, trivial⟩
    have key : (lr d (.sc (.call f (.mv "x")) (.rd "x")) (fun _ => [n])).1 = [0] := by
      simp only [lr, hf, if_true]
      simp [upd, Den.bin, truthy]
    have h1 : (lr d (.sc (.call f (.mv "x")) (.rd "x")) (fun _ => [n])).1 = v := congrArg Prod.fst this
    rw [← h1, key]

/-- C172 is violated: `i++ + i++` is accepted and its behaviour is undefined. -/
theorem increments_violated (k : Nat) :
    accepted (fun _ => false) "i" (.bin (.op k) (.post "i") (.post "i")) = true ∧
    (gen (fun _ => false) (.bin (.op k) (.post "i") (.post "i"))).Ub := by
  refine ⟨by simp [accepted, conv, Move.accepts, Move.chkS, Move.chkL, Move.chkE, Move.markRv, Move.lookup, Move.getM], ?_⟩
  exact .inr (.inr ⟨"i", .inl ⟨by simp [gen, C.posts], by simp [gen, C.ment]⟩⟩)

/-- C172 is violated: the calls in `f(1) + g(2)` may be made in the other order. -/
theorem calls_violated (f g k : Nat) (s : Store) (drop : Name → Bool) :
    (Spec.eval d (.bin (.op k) (.call f (.num 1)) (.call g (.num 2))) s).2.2 = [(f, [1]), (g, [2])] ∧
    ∃ v, Steps d s (gen drop (.bin (.op k) (.call f (.num 1)) (.call g (.num 2)))) s (.val v) [(g, [2]), (f, [1])] := by
  refine ⟨rfl, d.op k (d.fn f [1]) (d.fn g [2]), ?_⟩
  exact .head (.binR _ _ (.call s g [2])) (.head (.binL _ _ (.call s f [1])) (.head (.bin s _ _ _) (.refl _ _)))

end Verif.EvalOrder
