import Verif.ClosureOwn.Model

/-!
# C177: values with destructors and lambdas
-/

namespace Verif.ClosureOwn

open Spec

/-- The values of variables. -/
def held (ss : List Slot) : List Nat := ss.filterMap (·.res)

/-- A cleared flag goes with a zeroed variable. -/
def FlagsOk (ss : List Slot) : Prop := ∀ s ∈ ss, s.flag = false → s.res = none

/-- How often a value occurs in variables, contexts, and among what was destroyed. -/
def total (σ : State) (r : Nat) : Nat :=
  (held σ.vars).count r + (σ.ctxs.filterMap id).count r + σ.dropped.count r

theorem held_cons (s : Slot) (ss : List Slot) : held (s :: ss) = s.res.toList ++ held ss := by
  cases h : s.res <;> simp [held, h]

theorem take_held (x : String) (r : Nat) : ∀ ss, (held ss).count r =
    (take x ss).1.toList.count r + (held (take x ss).2).count r
  | [] => rfl
  | s :: ss => by
      rw [take]
      by_cases h : s.name = x
      · rw [if_pos h]
        simp only [held_cons, List.count_append]
        simp
      · rw [if_neg h]
        simp only [held_cons, List.count_append]
        rw [take_held x r ss]
        omega

theorem take_flags (x : String) : ∀ ss, FlagsOk ss → FlagsOk (take x ss).2
  | [], h => h
  | s :: ss, h => by
      rw [take]
      by_cases hx : s.name = x
      · rw [if_pos hx]
        intro t ht hf
        rcases List.mem_cons.mp ht with rfl | ht
        · rfl
        · exact h t (List.mem_cons_of_mem _ ht) hf
      · rw [if_neg hx]
        intro t ht hf
        rcases List.mem_cons.mp ht with rfl | ht
        · exact h _ List.mem_cons_self hf
        · exact take_flags x ss (fun u hu => h u (List.mem_cons_of_mem _ hu)) t ht hf

theorem takeAll_held (r : Nat) : ∀ (xs : List String) ss, (held ss).count r =
    ((takeAll xs ss).1.filterMap id).count r + (held (takeAll xs ss).2).count r
  | [], ss => by simp [takeAll]
  | x :: xs, ss => by
      rw [take_held x r ss, takeAll_held r xs (take x ss).2]
      simp only [takeAll]
      cases (take x ss).1 with
      | none => simp
      | some v => simp [List.count_cons]; omega

theorem takeAll_flags : ∀ (xs : List String) ss, FlagsOk ss → FlagsOk (takeAll xs ss).2
  | [], _, h => h
  | x :: xs, ss, h => takeAll_flags xs _ (take_flags x ss h)

theorem atEnd_held : ∀ ss, FlagsOk ss → atEnd ss = held ss
  | [], _ => rfl
  | s :: ss, h => by
      rw [atEnd, held_cons, atEnd_held ss (fun t ht => h t (List.mem_cons_of_mem _ ht))]
      cases hf : s.flag with
      | true => simp
      | false => simp [h s List.mem_cons_self hf]

theorem flags_cons {ss : List Slot} (n : String) (r : Option Nat) (h : FlagsOk ss) :
    FlagsOk (⟨n, r, true⟩ :: ss) := by
  intro t ht hf
  rcases List.mem_cons.mp ht with rfl | ht
  · cases hf
  · exact h t ht hf

/-- The values a body has made are in its variables, each once. -/
theorem runB_inv (n : Nat) : ∀ (bs : List B) (σ : Nat × List Slot), n ≤ σ.1 → FlagsOk σ.2 →
    (∀ r, (held σ.2).count r = if n ≤ r ∧ r < σ.1 then 1 else 0) →
    n ≤ (bs.foldl runB σ).1 ∧ FlagsOk (bs.foldl runB σ).2 ∧
    (∀ r, (held (bs.foldl runB σ).2).count r = if n ≤ r ∧ r < (bs.foldl runB σ).1 then 1 else 0)
  | [], _, h1, h2, h3 => ⟨h1, h2, h3⟩
  | b :: bs, σ, h1, h2, h3 => by
      rw [List.foldl_cons]
      cases b with
      | use y => exact runB_inv n bs σ h1 h2 h3
      | new y =>
        refine runB_inv n bs _ (Nat.le_succ_of_le h1) (flags_cons _ _ h2) (fun r => ?_)
        show (held (⟨y, some σ.1, true⟩ :: σ.2)).count r = if n ≤ r ∧ r < σ.1 + 1 then 1 else 0
        rw [held_cons, List.count_append, h3 r]
        by_cases hr : r = σ.1
        · subst hr
          simp [h1]
        · have : σ.1 ≠ r := fun h => hr h.symm
          simp [List.count_cons, this]
          by_cases h : n ≤ r ∧ r < σ.1
          · rw [if_pos h, if_pos (by omega)]
          · rw [if_neg h, if_neg (by omega)]
      | move z y =>
        refine runB_inv n bs _ h1 (flags_cons _ _ (take_flags y _ h2)) (fun r => ?_)
        show (held (⟨z, (take y σ.2).1, true⟩ :: (take y σ.2).2)).count r = _
        rw [held_cons, List.count_append, ← take_held y r σ.2]
        exact h3 r

/-- A body destroys exactly what it makes, each once. -/
theorem runBody_exact (n : Nat) (bs : List B) : n ≤ (runBody n bs).1 ∧
    ∀ r, (runBody n bs).2.count r = if n ≤ r ∧ r < (runBody n bs).1 then 1 else 0 := by
  obtain ⟨h1, h2, h3⟩ := runB_inv n bs (n, []) (Nat.le_refl _) (fun _ h => nomatch h)
    (fun r => by
      rw [if_neg (by simp only []; omega)]
      rfl)
  refine ⟨h1, fun r => ?_⟩
  show (atEnd _).count r = _
  rw [atEnd_held _ h2, h3 r]
  rfl

/-- What holds throughout. -/
structure Good (σ : State) : Prop where
  flags : FlagsOk σ.vars
  once : ∀ r, total σ r ≤ 1
  fresh : ∀ r, σ.next ≤ r → total σ r = 0

theorem good_init : Good init := ⟨fun _ h => (nomatch h), fun _ => by simp [total, init, held],
  fun _ _ => by simp [total, init, held]⟩

/-- Effect of a statement on the count of a value: values made count once, those made before stay
or, as arguments of a closure, are lost. -/
theorem step_total (σ : State) (s : S) (r : Nat) :
    σ.next ≤ (step σ s).next ∧
    (if σ.next ≤ r ∧ r < (step σ s).next then
        total (step σ s) r ≤ total σ r + 1 ∧ total σ r + 1 ≤ total (step σ s) r +
          (match s with | .call _ args => ((takeAll args σ.vars).1.filterMap id).count r | _ => 0)
      else total (step σ s) r ≤ total σ r ∧ total σ r ≤ total (step σ s) r +
          (match s with | .call _ args => ((takeAll args σ.vars).1.filterMap id).count r | _ => 0)) := by
  cases s with
  | new x =>
    refine ⟨Nat.le_succ _, ?_⟩
    have h : total (step σ (.new x)) r = total σ r + (if r = σ.next then 1 else 0) := by
      simp only [total, step, held_cons, List.count_append]
      by_cases hr : r = σ.next
      · subst hr; simp; omega
      · have : σ.next ≠ r := fun h => hr h.symm
        simp [List.count_cons, hr, this]
    show if σ.next ≤ r ∧ r < σ.next + 1 then _ else _
    rw [h]
    by_cases hr : r = σ.next
    · rw [if_pos (by omega), if_pos hr]; simp
    · rw [if_neg (by omega), if_neg hr]; simp
  | move y x =>
    refine ⟨Nat.le_refl _, ?_⟩
    have h : total (step σ (.move y x)) r = total σ r := by
      simp only [total, step, held_cons, List.count_append]
      rw [take_held x r σ.vars]
    show if σ.next ≤ r ∧ r < σ.next then _ else _
    rw [if_neg (by omega), h]
    simp
  | use x =>
    refine ⟨Nat.le_refl _, ?_⟩
    show if σ.next ≤ r ∧ r < σ.next then _ else _
    rw [if_neg (by omega)]
    simp [step]
  | lam c l =>
    refine ⟨Nat.le_refl _, ?_⟩
    have h : total (step σ (.lam c l)) r = total σ r := by
      simp only [total, step, List.filterMap_append, List.count_append]
      rw [takeAll_held r l.vals σ.vars]
      omega
    show if σ.next ≤ r ∧ r < σ.next then _ else _
    rw [if_neg (by omega), h]
    simp
  | fn args =>
    refine ⟨Nat.le_refl _, ?_⟩
    have h : total (step σ (.fn args)) r = total σ r := by
      simp only [total, step, List.count_append]
      rw [takeAll_held r args σ.vars, List.filterMap_reverse, List.count_reverse]
      omega
    show if σ.next ≤ r ∧ r < σ.next then _ else _
    rw [if_neg (by omega), h]
    simp
  | call c args =>
    cases hl : σ.fns.lookup c with
    | none =>
      have hs : step σ (.call c args) = { σ with vars := (takeAll args σ.vars).2 } := by
        simp only [step, hl]
      rw [hs]
      refine ⟨Nat.le_refl _, ?_⟩
      have h := takeAll_held r args σ.vars
      show if σ.next ≤ r ∧ r < σ.next then _ else _
      rw [if_neg (by omega)]
      simp only [total]
      omega
    | some l =>
      have hs : step σ (.call c args) = { σ with
          next := (runBody σ.next l.body).1
          vars := (takeAll args σ.vars).2
          dropped := σ.dropped ++ (runBody σ.next l.body).2 } := by
        simp only [step, hl]
      rw [hs]
      obtain ⟨hb1, hb2⟩ := runBody_exact σ.next l.body
      refine ⟨hb1, ?_⟩
      have h := takeAll_held r args σ.vars
      show if σ.next ≤ r ∧ r < (runBody σ.next l.body).1 then _ else _
      by_cases hr : σ.next ≤ r ∧ r < (runBody σ.next l.body).1
      · rw [if_pos hr]
        simp only [total, List.count_append, hb2 r, if_pos hr]
        omega
      · rw [if_neg hr]
        simp only [total, List.count_append, hb2 r, if_neg hr]
        omega

theorem step_flags (σ : State) (s : S) (h : FlagsOk σ.vars) : FlagsOk (step σ s).vars := by
  cases s with
  | new x => exact flags_cons _ _ h
  | move y x => exact flags_cons _ _ (take_flags x _ h)
  | use x => exact h
  | lam c l => exact takeAll_flags _ _ h
  | fn args => exact takeAll_flags _ _ h
  | call c args =>
    simp only [step]
    split
    · exact takeAll_flags _ _ h
    · exact takeAll_flags _ _ h

theorem good_step {σ : State} (h : Good σ) (s : S) : Good (step σ s) := by
  refine ⟨step_flags σ s h.flags, fun r => ?_, fun r hr => ?_⟩
  · obtain ⟨_, ht⟩ := step_total σ s r
    by_cases hc : σ.next ≤ r ∧ r < (step σ s).next
    · rw [if_pos hc] at ht
      have := h.fresh r hc.1
      omega
    · rw [if_neg hc] at ht
      have := h.once r
      omega
  · obtain ⟨hn, ht⟩ := step_total σ s r
    rw [if_neg (by omega)] at ht
    have := h.fresh r (by omega)
    omega

theorem good_steps : ∀ (p : List S) {σ : State}, Good σ → Good (p.foldl step σ)
  | [], _, h => h
  | s :: p, _, h => good_steps p (good_step h s)

/-- What is destroyed in the end counts at most as often as it is somewhere. -/
theorem end_count {σ : State} (h : Good σ) (r : Nat) :
    (σ.dropped ++ atEnd σ.vars).count r + (σ.ctxs.filterMap id).count r = total σ r := by
  rw [List.count_append, atEnd_held _ h.flags, total]
  omega

theorem run_some {p : List S} {n : Nat} {d : List Nat} (h : run p = some (n, d)) :
    n = (p.foldl step init).next ∧
    d = (p.foldl step init).dropped ++ atEnd (p.foldl step init).vars := by
  unfold run at h
  by_cases hc : p.all compiles = true
  · rw [if_pos hc] at h
    injection h with h
    injection h with h1 h2
    exact ⟨h1.symm, h2.symm⟩
  · rw [if_neg hc] at h
    cases h

/-- C177: whatever is captured, moved and called, no value is destroyed twice, and nothing is
destroyed that was not made. -/
theorem never_twice (p : List S) (n : Nat) (d : List Nat) (h : run p = some (n, d)) (r : Nat) :
    d.count r ≤ 1 ∧ (r ∈ d → r < n) := by
  obtain ⟨rfl, rfl⟩ := run_some h
  have hg := good_steps p good_init
  have he := end_count hg r
  refine ⟨by have := hg.once r; omega, fun hm => ?_⟩
  apply Classical.byContradiction
  intro hn
  have := hg.fresh r (by omega)
  have := List.count_pos_iff.mpr hm
  omega

theorem exact_steps : ∀ (p : List S) (σ : State), (∀ s ∈ p, Borrows s) →
    σ.ctxs = [] → (∀ r, r < σ.next → total σ r = 1) →
    (p.foldl step σ).ctxs = [] ∧ ∀ r, r < (p.foldl step σ).next → Good σ →
      total (p.foldl step σ) r = 1
  | [], _, _, hc, ht => ⟨hc, fun r hr _ => ht r hr⟩
  | s :: p, σ, hb, hc, ht => by
      have hs := hb s List.mem_cons_self
      have hc' : (step σ s).ctxs = [] := by
        cases s with
        | lam c l =>
          have : l.vals = [] := hs
          simp [step, this, takeAll, hc]
        | call c args =>
          simp only [step]
          split <;> exact hc
        | _ => exact hc
      by_cases hg : Good σ
      · have ht' : ∀ r, r < (step σ s).next → total (step σ s) r = 1 := by
          intro r hr
          obtain ⟨_, h⟩ := step_total σ s r
          have hz : (match s with
              | .call _ args => ((takeAll args σ.vars).1.filterMap id).count r | _ => 0) = 0 := by
            cases s with
            | call c args =>
              have : args = [] := hs
              simp [this, takeAll]
            | _ => rfl
          rw [hz] at h
          by_cases hr' : σ.next ≤ r ∧ r < (step σ s).next
          · rw [if_pos hr'] at h
            have := hg.fresh r hr'.1
            omega
          · rw [if_neg hr'] at h
            have := ht r (by omega)
            omega
        obtain ⟨h1, h2⟩ := exact_steps p (step σ s) (fun u hu => hb u (List.mem_cons_of_mem _ hu))
          hc' ht'
        exact ⟨h1, fun r hr _ => h2 r hr (good_step hg s)⟩
      · refine ⟨?_, fun _ _ h => absurd h hg⟩
        have : ∀ (q : List S) (τ : State), (∀ s ∈ q, Borrows s) → τ.ctxs = [] →
            (q.foldl step τ).ctxs = [] := by
          intro q
          induction q with
          | nil => intro τ _ h; exact h
          | cons u q ih =>
            intro τ hq h
            refine ih (step τ u) (fun v hv => hq v (List.mem_cons_of_mem _ hv)) ?_
            have hu := hq u List.mem_cons_self
            cases u with
            | lam c l =>
              have : l.vals = [] := hu
              simp [step, this, takeAll, h]
            | call c args =>
              simp only [step]
              split <;> exact h
            | _ => exact h
        exact this p (step σ s) (fun u hu => hb u (List.mem_cons_of_mem _ hu)) hc'

/-- C177 (partial): in a function whose lambdas capture by reference only and whose closures get
no such arguments, every value made, by the function or by a lambda called, is destroyed exactly
once.  Missing, because it fails: captures by value and arguments of closures. -/
theorem exact_partial (p : List S) (n : Nat) (d : List Nat) (hb : ∀ s ∈ p, Borrows s)
    (h : run p = some (n, d)) : Exact n d := by
  obtain ⟨rfl, rfl⟩ := run_some h
  intro r hr
  obtain ⟨h1, h2⟩ := exact_steps p init hb rfl (fun r hr => absurd hr (Nat.not_lt_zero r))
  have he := end_count (good_steps p good_init) r
  rw [h2 r hr good_init, h1] at he
  simpa using he

/-! ## Where the full statement fails -/

theorem holds_take {vars : List Slot} {x : String} {r : Nat} (h : Holds vars x r) :
    (take x vars).1 = some r := by
  obtain ⟨pre, s, post, rfl, h1, h2, h3⟩ := h
  induction pre with
  | nil =>
    rw [List.nil_append, take, if_pos h2]
    exact h3
  | cons t pre ih =>
    rw [List.cons_append, take, if_neg (h1 t List.mem_cons_self)]
    exact ih (fun u hu => h1 u (List.mem_cons_of_mem _ hu))

theorem holds_other {x y : String} {r : Nat} (hxy : y ≠ x) : ∀ {vars : List Slot},
    Holds vars x r → Holds (take y vars).2 x r := by
  intro vars h
  obtain ⟨pre, s, post, rfl, h1, h2, h3⟩ := h
  induction pre with
  | nil =>
    rw [List.nil_append, take, if_neg (by rw [h2]; exact fun h => hxy h.symm)]
    exact ⟨[], s, (take y post).2, rfl, fun _ h => (nomatch h), h2, h3⟩
  | cons t pre ih =>
    rw [List.cons_append, take]
    by_cases ht : t.name = y
    · rw [if_pos ht]
      exact ⟨{ t with res := none, flag := false } :: pre, s, post, rfl, fun u hu => by
        rcases List.mem_cons.mp hu with rfl | hu
        · exact h1 t List.mem_cons_self
        · exact h1 u (List.mem_cons_of_mem _ hu), h2, h3⟩
    · rw [if_neg ht]
      obtain ⟨pre', s', post', he, g1, g2, g3⟩ := ih (fun u hu => h1 u (List.mem_cons_of_mem _ hu))
      refine ⟨t :: pre', s', post', by simp only [he, List.cons_append], fun u hu => ?_, g2, g3⟩
      rcases List.mem_cons.mp hu with rfl | hu
      · exact h1 _ List.mem_cons_self
      · exact g1 u hu

theorem holds_takeAll {x : String} {r : Nat} : ∀ (xs : List String) (vars : List Slot), x ∈ xs →
    Holds vars x r → r ∈ (takeAll xs vars).1.filterMap id
  | y :: xs, vars, hx, h => by
      simp only [takeAll, List.mem_filterMap]
      by_cases hy : y = x
      · subst hy
        exact ⟨some r, by rw [holds_take h]; exact List.mem_cons_self, rfl⟩
      · rcases List.mem_cons.mp hx with rfl | hx
        · exact absurd rfl hy
        · have := holds_takeAll xs (take y vars).2 hx (holds_other hy h)
          obtain ⟨o, ho, hr⟩ := List.mem_filterMap.mp this
          exact ⟨o, List.mem_cons_of_mem _ ho, hr⟩

/-- Variables are destroyed in the opposite order of their declarations. -/
theorem end_order : ∀ (xs : List String) (σ : State),
    atEnd ((xs.map S.new).foldl step σ).vars =
      (List.range' σ.next xs.length).reverse ++ atEnd σ.vars
  | [], _ => by simp
  | x :: xs, σ => by
      rw [List.map_cons, List.foldl_cons, end_order xs (step σ (.new x)), List.length_cons,
        List.range'_succ, List.reverse_cons]
      simp [step, atEnd]

/-- The arguments of a function are destroyed in it, the last one first. -/
theorem fn_order (σ : State) (args : List String) (rs : List Nat) (hn : args.Nodup)
    (hl : args.length = rs.length)
    (hr : ∀ i (h : i < args.length), Holds σ.vars args[i] (rs[i]'(hl ▸ h))) :
    (step σ (.fn args)).dropped = σ.dropped ++ rs.reverse := by
  have key : ∀ (args : List String) (rs : List Nat) (vars : List Slot) (_ : args.Nodup)
      (hl : args.length = rs.length)
      (_ : ∀ i (h : i < args.length), Holds vars args[i] (rs[i]'(hl ▸ h))),
      (takeAll args vars).1 = rs.map some := by
    intro args
    induction args with
    | nil =>
      intro rs vars _ hl _
      cases rs with
      | nil => rfl
      | cons r rs => cases hl
    | cons x xs ih =>
      intro rs vars hn hl hr
      cases rs with
      | nil => cases hl
      | cons r rs =>
        have hl' : xs.length = rs.length := by simpa using hl
        have hx : x ∉ xs := (List.nodup_cons.mp hn).1
        have h0 : Holds vars x r := hr 0 (by simp)
        simp only [takeAll, List.map_cons]
        rw [holds_take h0, ih rs (take x vars).2 (List.nodup_cons.mp hn).2 hl' (fun i h => ?_)]
        have := hr (i + 1) (by simpa using h)
        simp only [List.getElem_cons_succ] at this
        refine holds_other (fun he => hx ?_) this
        rw [he]
        exact List.getElem_mem h
  show σ.dropped ++ (takeAll args σ.vars).1.reverse.filterMap id = _
  rw [key args rs σ.vars hn hl hr, ← List.map_reverse]
  congr 1
  simp [List.filterMap_map]

theorem ctxs_mono (r : Nat) : ∀ (p : List S) (σ : State), r ∈ σ.ctxs.filterMap id →
    r ∈ (p.foldl step σ).ctxs.filterMap id
  | [], _, h => h
  | s :: p, σ, h => by
      refine ctxs_mono r p (step σ s) ?_
      cases s with
      | lam c l =>
        simp only [step, List.filterMap_append]
        exact List.mem_append_right _ h
      | call c args =>
        simp only [step]
        split <;> exact h
      | _ => exact h

/-- A value captured by value is never destroyed, whatever comes before and after: neither by the
function, nor by the closure, nor when the closure goes away. -/
theorem captured_violated (p q : List S) (c : String) (l : Lambda) (x : String) (r : Nat)
    (hx : x ∈ l.vals) (hr : Holds (p.foldl step init).vars x r) (n : Nat) (d : List Nat)
    (h : run (p ++ .lam c l :: q) = some (n, d)) : r < n ∧ r ∉ d := by
  obtain ⟨rfl, rfl⟩ := run_some h
  have hg := good_steps (p ++ .lam c l :: q) good_init
  have hc : r ∈ ((p ++ .lam c l :: q).foldl step init).ctxs.filterMap id := by
    rw [List.foldl_append, List.foldl_cons]
    refine ctxs_mono r q _ ?_
    simp only [step, List.filterMap_append]
    exact List.mem_append_left _ (holds_takeAll _ _ hx hr)
  have h1 := List.count_pos_iff.mpr hc
  have he := end_count hg r
  have ho := hg.once r
  constructor
  · apply Classical.byContradiction
    intro hn
    have := hg.fresh r (by omega)
    omega
  · intro hm
    have := List.count_pos_iff.mpr hm
    omega

theorem next_mono : ∀ (p : List S) (σ : State), σ.next ≤ (p.foldl step σ).next
  | [], _ => Nat.le_refl _
  | s :: p, σ => Nat.le_trans (step_total σ s 0).1 (next_mono p (step σ s))

theorem lost : ∀ (p : List S) (σ : State) (r : Nat), r < σ.next → total σ r = 0 →
    total (p.foldl step σ) r = 0
  | [], _, _, _, h => h
  | s :: p, σ, r, hr, h => by
      obtain ⟨hn, ht⟩ := step_total σ s r
      rw [if_neg (by omega)] at ht
      exact lost p (step σ s) r (by omega) (by omega)

/-- A value given to a closure as an argument is never destroyed. -/
theorem argument_violated (p q : List S) (c : String) (args : List String) (x : String) (r : Nat)
    (hx : x ∈ args) (hr : Holds (p.foldl step init).vars x r) (n : Nat) (d : List Nat)
    (h : run (p ++ .call c args :: q) = some (n, d)) : r < n ∧ r ∉ d := by
  obtain ⟨rfl, rfl⟩ := run_some h
  have hg := good_steps (p ++ .call c args :: q) good_init
  have hp := good_steps p good_init
  generalize hσ : p.foldl step init = σ at *
  have hm := holds_takeAll args _ hx hr
  have h1 := List.count_pos_iff.mpr hm
  have hh := takeAll_held r args σ.vars
  have ho := hp.once r
  have hlt : r < σ.next := by
    apply Classical.byContradiction
    intro hn
    have := hp.fresh r (by omega)
    simp only [total] at this
    omega
  have ht : total (step σ (.call c args)) r = 0 := by
    simp only [total] at ho
    cases hl : σ.fns.lookup c with
    | none => simp only [step, hl, total]; omega
    | some l =>
      obtain ⟨_, hb⟩ := runBody_exact σ.next l.body
      have := hb r
      rw [if_neg (by omega)] at this
      simp only [step, hl, total, List.count_append]
      omega
  have hn := (step_total σ (.call c args) r).1
  have hz : total ((p ++ .call c args :: q).foldl step init) r = 0 := by
    rw [List.foldl_append, List.foldl_cons, hσ]
    exact lost q _ r (by omega) ht
  have hnx : r < ((p ++ .call c args :: q).foldl step init).next := by
    rw [List.foldl_append, List.foldl_cons, hσ]
    exact Nat.lt_of_lt_of_le (Nat.lt_of_lt_of_le hlt hn) (next_mono q _)
  refine ⟨hnx, fun hm => ?_⟩
  have he := end_count hg r
  have := List.count_pos_iff.mpr hm
  omega

theorem moves_compiles : ∀ (bs : List B) (locals : List String),
    bodyCompiles locals bs = false ↔ MovesOutside locals bs
  | [], _ => by simp [bodyCompiles, MovesOutside]
  | .new y :: bs, ls => by rw [bodyCompiles, MovesOutside, moves_compiles bs]
  | .use y :: bs, ls => by rw [bodyCompiles, MovesOutside, moves_compiles bs]
  | .move z y :: bs, ls => by
      rw [bodyCompiles, MovesOutside, ← moves_compiles bs, Bool.and_eq_false_iff]
      simp

/-- A function is compiled exactly if no lambda in it moves a capture or a parameter. -/
theorem move_out_violated (p : List S) :
    run p = none ↔ ∃ c l, .lam c l ∈ p ∧ MovesOutside [] l.body := by
  unfold run
  constructor
  · intro h
    by_cases hc : p.all compiles = true
    · rw [if_pos hc] at h
      cases h
    · rw [List.all_eq_true] at hc
      apply Classical.byContradiction
      intro hn
      apply hc
      intro s hs
      cases s with
      | lam c l =>
        cases hb : bodyCompiles [] l.body with
        | true => exact hb
        | false => exact absurd ⟨c, l, hs, (moves_compiles _ _).mp hb⟩ hn
      | _ => rfl
  · rintro ⟨c, l, hm, ho⟩
    rw [if_neg]
    intro ha
    rw [List.all_eq_true] at ha
    have := ha _ hm
    have hf := (moves_compiles l.body []).mpr ho
    simp only [compiles, hf] at this
    cases this

/-! ## Cases that meet the hypotheses -/

/-- A function with a lambda that captures by reference and makes a value of its own; the closure
is called twice, and one value is given to a function. -/
def sample : List S :=
  [.new "a", .new "b", .lam "c" ⟨[], ["a"], [], [.use "a", .new "t", .move "u" "t"]⟩,
   .call "c" [], .call "c" [], .fn ["b"], .move "e" "a", .use "e"]

theorem sample_borrows : ∀ s ∈ sample, Borrows s := by
  simp [sample, Borrows]

example : run sample = some (4, [2, 3, 1, 0]) := by decide +kernel

example : run [.new "a", .lam "c" ⟨["a"], [], [], [.use "a"]⟩, .call "c" []] = some (1, []) := by
  decide +kernel

example : Holds ([S.new "a"].foldl step init).vars "a" 0 :=
  ⟨[], ⟨"a", some 0, true⟩, [], rfl, fun _ h => (nomatch h), rfl, rfl⟩

example : run [.new "a", .lam "c" ⟨["a"], [], [], [.move "b" "a"]⟩] = none := by decide +kernel

end Verif.ClosureOwn
