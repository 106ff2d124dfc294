import Verif.Defer.Ghost

/-!
# Claims about deferred statements (C26) and destructors (C46)
-/

namespace Verif.Defer

open Spec (OnceEach NoGhost)

/-- The programs the theorems speak about: a function with parameters `ps` (those that have a
destructor) and a body within the limits of `ok`, loops nested at most 64 deep. -/
def Fits (ps : List Name) (body : Block) : Prop :=
  okL (params ps (.cons (.block body) .nil)) [] [] = true ∧ depth (func ps body) ≤ maxLoopDepth

instance (ps : List Name) (body : Block) : Decidable (Fits ps body) := by
  unfold Fits; infer_instance

/-- a function body, written as a list -/
def body : List Stmt → Block
  | [] => .nil
  | s :: ss => .cons s (body ss)

theorem behaviour_fits {ps : List Name} {b : Block} (h : Fits ps b) (orc : Nat → Bool) (n : Nat) :
    ∃ s, behaviour orc n (func ps b) = some ((runC orc n s c0).1, (runC orc n s c0).2.1) ∧
      s = one (tree (func ps b) [] []) ∧
      (runC orc n s c0).1 = (Spec.behaviour orc n (func ps b)).1 ∧
      erase (runC orc n s c0).2.1 = (Spec.behaviour orc n (func ps b)).2 := by
  refine ⟨one (tree (func ps b) [] []), ?_, rfl, ?_⟩
  · have hp := parse_func (params ps (.cons (.block b) .nil)) h.1
    have hc : compile (func ps b) = some (emit (func ps b) [] []).1 := by
      unfold compile; rw [if_pos h.2]
    unfold behaviour
    rw [hc]
    simp only
    rw [func, hp]
  · have hs := sim orc n (func ps b) [] [] Spec.s0 c0 [] (by simpa [func, ok] using h.1) rfl rfl
      (fun c i e => by simp [c0, sto0] at e) trivial (fun _ _ e => by simp at e)
    rw [tree_single (func ps b) [] [] rfl, runCL_one] at hs
    have hcl : (Spec.run orc n (func ps b) Spec.s0).2.2.cl = [] := by
      simp [func, Spec.run, Spec.back, Spec.s0]
    unfold Spec.behaviour
    generalize Spec.run orc n (func ps b) Spec.s0 = r at hs hcl
    obtain ⟨o, t, σ⟩ := r
    obtain ⟨h1, h2⟩ := hs
    refine ⟨h1, ?_⟩
    simp only at hcl
    cases o
    · exact h2.1
    · obtain ⟨b, bs, e, _⟩ := h2
      simp at e
    · obtain ⟨b, bs, e, _⟩ := h2
      simp at e
    · simpa [hcl, Spec.clean] using h2
    · exact h2

/-- C26.  For functions that `Fits` admits, the C program the translator prints is accepted by the
C grammar and does, for every outcome of the conditions and every number of loop turns, exactly
what the block rule says: each scope's deferred statements and destructors run once, latest first,
when the scope is left by falling off its end, by `break`, `continue` or `return`.  The only
difference allowed: the C program may call a destructor on a variable that was moved out (zeroed
memory); see `defers_same_partial`.
Missing (and false, see the `_violated` theorems): bodies without braces, names hidden by inner
declarations, `?` and slice returns with something deferred, labelled breaks, more than 1024
deferred statements, more than 64 nested loops, assignments to variables with destructors. -/
theorem defers_run_partial (ps : List Name) (b : Block) (h : Fits ps b) (orc : Nat → Bool) (n : Nat) :
    ∃ o t, behaviour orc n (func ps b) = some (o, t) ∧
      (o, erase t) = Spec.behaviour orc n (func ps b) := by
  obtain ⟨s, h1, _, h2, h3⟩ := behaviour_fits h orc n
  exact ⟨_, _, h1, by rw [h2, h3]⟩

/-- C26.  Without `return x` of a variable with a destructor, and if every `let y = x` takes a
variable that still holds an object, the two runs are equal event by event. -/
theorem defers_same_partial (ps : List Name) (b : Block) (h : Fits ps b) (orc : Nat → Bool) (n : Nat)
    (hr : noRetMoveL b = true)
    (hm : ∀ v, .moved v ∈ (Spec.behaviour orc n (func ps b)).2 → ∃ i, v = .obj i) :
    behaviour orc n (func ps b) = some (Spec.behaviour orc n (func ps b)) := by
  obtain ⟨s, h1, hs, h2, h3⟩ := behaviour_fits h orc n
  have hz : noZero s = true := by
    rw [hs]
    have hp : ∀ ps : List Name, noRetMoveL (params ps (.cons (.block b) .nil)) = true := by
      intro ps
      induction ps with
      | nil => simp [params, noRetMoveL, noRetMove, hr]
      | cons x xs ih => simpa [params, noRetMoveL, noRetMove] using ih
    have ht := tree_noZero (func ps b) [] [] (by simpa [func, noRetMove] using hp ps)
    rw [tree_single (func ps b) [] [] rfl] at ht
    exact (noZeros_one _).1 ht
  have hg := (fine_run orc n s c0 hz (fun c e => by simp [c0] at e)
    (movesOk_erase (by rw [h3]; exact hm))).1
  rw [erase_noGhost hg] at h3
  rw [h1, h2, h3]

theorem count_erase (t : List Ev) (e : Ev) (h : real e = true) : (erase t).count e = t.count e := by
  unfold erase
  rw [List.count_filter h]

theorem spec_once {ps : List Name} {b : Block} (h : Fits ps b) (orc : Nat → Bool) (n i : Nat) :
    gone i (Spec.behaviour orc n (func ps b)).2 ≤ 1 ∧
    ((Spec.behaviour orc n (func ps b)).1 ≠ .cut →
      gone i (Spec.behaviour orc n (func ps b)).2 = made i (Spec.behaviour orc n (func ps b)).2) := by
  have hg := good_run orc n i (func ps b) [] [] Spec.s0 [] (by simpa [func, ok] using h.1) trivial
    (fun x c e => by simp [Spec.s0, look] at e)
  have hcl : (Spec.run orc n (func ps b) Spec.s0).2.2.cl = [] := by
    simp [func, Spec.run, Spec.back, Spec.s0]
  have h1 := hg.made
  have h2 := hg.le
  have h3 := hg.done
  have h0 : ∀ s, cnt i [] s = 0 := fun _ => rfl
  have hc0 : (Spec.s0.cl ++ [] : List Spec.Clean) = [] := rfl
  rw [hc0, h0] at h2
  rw [hcl, hc0] at h3
  unfold Spec.behaviour
  refine ⟨?_, fun hn => ?_⟩
  · simp only
    split at h1 <;> omega
  · have := (h3 hn).2.2
    rw [List.append_nil, h0, h0] at this
    simp only
    omega

/-- C46.  For functions that `Fits` admits, every run of the printed C program destroys each object
it makes exactly once or hands it over exactly once, never both; a run that is still going has done
so at most once. -/
theorem destroyed_once_partial (ps : List Name) (b : Block) (h : Fits ps b) (orc : Nat → Bool)
    (n : Nat) :
    ∃ o t, behaviour orc n (func ps b) = some (o, t) ∧
      (o ≠ .cut → OnceEach t) ∧
      ∀ i, t.count (.drop (.obj i)) + t.count (.given (.obj i)) ≤ 1 := by
  obtain ⟨s, h1, _, h2, h3⟩ := behaviour_fits h orc n
  refine ⟨_, _, h1, fun hn i hi => ?_, fun i => ?_⟩
  · have hs := (spec_once h orc n i).2 (h2 ▸ hn)
    have hl := (spec_once h orc n i).1
    rw [← h3] at hs hl
    have e1 := count_erase (runC orc n s c0).2.1 (.drop (.obj i)) rfl
    have e2 := count_erase (runC orc n s c0).2.1 (.given (.obj i)) rfl
    have e3 := count_erase (runC orc n s c0).2.1 (.new i) rfl
    simp only [gone, made] at hs hl
    have : 0 < (runC orc n s c0).2.1.count (.new i) := List.count_pos_iff.2 hi
    omega
  · have hl := (spec_once h orc n i).1
    rw [← h3] at hl
    have e1 := count_erase (runC orc n s c0).2.1 (.drop (.obj i)) rfl
    have e2 := count_erase (runC orc n s c0).2.1 (.given (.obj i)) rfl
    simp only [gone] at hl
    omega

/-- C46.  ... and never calls a destructor for a variable that was moved out, provided no variable
with a destructor is returned by name (`ghost_violated`) and nothing is moved twice. -/
theorem no_ghost_partial (ps : List Name) (b : Block) (h : Fits ps b) (orc : Nat → Bool) (n : Nat)
    (hr : noRetMoveL b = true)
    (hm : ∀ v, .moved v ∈ (Spec.behaviour orc n (func ps b)).2 → ∃ i, v = .obj i) :
    ∃ o t, behaviour orc n (func ps b) = some (o, t) ∧ NoGhost t := by
  have he := defers_same_partial ps b h orc n hr hm
  obtain ⟨s, h1, hs, h2, h3⟩ := behaviour_fits h orc n
  refine ⟨_, _, he, fun v hv => ?_⟩
  have hv : .drop v ∈ (Spec.behaviour orc n (func ps b)).2 := hv
  rw [← h3] at hv
  have hr := (List.mem_filter.1 hv).2
  cases v with
  | obj i => exact ⟨i, rfl⟩
  | num _ => simp [real] at hr
  | gone => simp [real] at hr

/-! ## A program that meets the hypotheses

```
fn f(p: T) {
  defer a(p);
  let x = T();
  while c0 {
    let y = T();
    defer b(x, y);
    if c1 { break; }
    if c2 { let z = y; continue; }
    take(y);
  }
  guard c3 else { return; }
  if c4 { return g(x); }
}
``` -/
def sample : Block := body [
  .defer (.use 1 [0]), .decl 1,
  .loop (some 0) (.block (body [
    .decl 2, .defer (.use 2 [1, 2]),
    .ifS 1 (.block (body [.brk])),
    .ifS 2 (.block (body [.letMove 3 2, .cont])),
    .act (.consume 2)])),
  .guard 3 (.block (body [.ret])),
  .ifS 4 (.block (body [.retv (.use 4 [1])]))]

theorem sample_fits : Fits [0] sample := by decide +kernel

/-- outcomes of the conditions in order -/
def answers (l : List Bool) (k : Nat) : Bool := l.getD k false

/-- two turns (`continue`, `break`), then the early return -/
example : behaviour (answers [true, false, true, true, true, true, true]) 9 (func [0] sample) =
    some (.ret, [.new 0, .new 1,
      .test 0 true, .new 2, .test 1 false, .test 2 true, .moved (.obj 2), .drop (.obj 2),
      .use 2 [.obj 1, .gone],
      .test 0 true, .new 3, .test 1 true, .use 2 [.obj 1, .obj 3], .drop (.obj 3),
      .test 3 true, .test 4 true, .use 4 [.obj 1], .drop (.obj 1), .use 1 [.obj 0],
      .drop (.obj 0)]) := by decide +kernel

example : noRetMoveL sample = true ∧ ∀ v, .moved v ∈ (Spec.behaviour
    (answers [true, false, true, true, true, true, true]) 9 (func [0] sample)).2 →
      ∃ i, v = .obj i := by
  refine ⟨by decide +kernel, ?_⟩
  have : (Spec.behaviour (answers [true, false, true, true, true, true, true]) 9
      (func [0] sample)).2.all (fun e => match e with
        | .moved (.obj _) => true
        | .moved .gone => false
        | .moved (.num _) => false
        | _ => true) = true := by decide +kernel
  intro v hv
  have := List.all_eq_true.1 this _ hv
  cases v with
  | obj i => exact ⟨i, rfl⟩
  | num _ => simp at this
  | gone => simp at this

/-! ## Violations (C26) -/

/-- `defer a(); guard c else return; b();` prints `if (!c) a(); return; b();`: the function always
returns at the guard, and if the condition holds the deferred call never happens. -/
theorem guard_return_violated :
    ∃ b : Block, behaviour (fun _ => true) 1 (func [] b) = some (.ret, [.test 0 true]) ∧
      Spec.behaviour (fun _ => true) 1 (func [] b) =
        (.norm, [.test 0 true, .use 2 [], .use 1 []]) :=
  ⟨body [.defer (.use 1 []), .guard 0 .ret, .act (.use 2 [])], by decide +kernel⟩

/-- `while c return;` with something deferred: the deferred statement becomes the loop body and
the `return` follows the loop. -/
theorem while_return_violated :
    ∃ b : Block, behaviour (answers [true, true, false]) 3 (func [] b) =
        some (.ret, [.test 0 true, .use 1 [], .test 0 true, .use 1 [], .test 0 false]) ∧
      Spec.behaviour (answers [true, true, false]) 3 (func [] b) =
        (.ret, [.test 0 true, .use 1 []]) :=
  ⟨body [.defer (.use 1 []), .loop (some 0) .ret, .act (.use 2 [])], by decide +kernel⟩

/-- `let x = 10; defer a(x); { let x = 20; return; }`: the deferred call sees the inner `x`. -/
theorem shadowed_name_violated :
    ∃ b : Block, behaviour (fun _ => true) 1 (func [] b) = some (.ret, [.use 5 [.num 20]]) ∧
      Spec.behaviour (fun _ => true) 1 (func [] b) = (.ret, [.use 5 [.num 10]]) :=
  ⟨body [.val 1 10, .defer (.use 5 [1]), .block (body [.val 1 20, .ret])], by decide +kernel⟩

/-- `defer a(); e?; b();`: when `e` fails the function returns without the deferred call. -/
theorem try_violated :
    ∃ b : Block, behaviour (fun _ => false) 1 (func [] b) = some (.ret, [.test 0 false]) ∧
      Spec.behaviour (fun _ => false) 1 (func [] b) = (.ret, [.test 0 false, .use 1 []]) :=
  ⟨body [.defer (.use 1 []), .attempt 0, .act (.use 2 [])], by decide +kernel⟩

/-- Returning an array literal as a slice skips what is deferred. -/
theorem slice_return_violated :
    ∃ b : Block, behaviour (fun _ => false) 1 (func [] b) = some (.ret, [.use 2 []]) ∧
      Spec.behaviour (fun _ => false) 1 (func [] b) = (.ret, [.use 2 [], .use 1 []]) :=
  ⟨body [.defer (.use 1 []), .retSlice (.use 2 [])], by decide +kernel⟩

/-- Labelled `break` prints a `goto` to a label that is printed nowhere. -/
theorem labelled_break_violated :
    ∃ b : Block, ∃ ts, compile (func [] b) = some ts ∧ ¬ Linked ts := by
  refine ⟨body [.loop none (.block (body [.loop none (.block (body [.brkL 7]))]))], _, rfl, fun h => ?_⟩
  have := h 7 (by decide +kernel)
  revert this
  decide +kernel

/-- a number of deferred calls -/
def defers : Nat → Block
  | 0 => .nil
  | k + 1 => .cons (.defer (.use 1 [])) (defers k)

theorem emitL_defers_full (k : Nat) (ds : List Cl) (bs : List Nat) (h : maxDefer ≤ ds.length) :
    emitL (defers k) ds bs = ([], ds) := by
  induction k with
  | zero => rfl
  | succ k ih => simp [defers, emitL, emit, push, Nat.not_lt.2 h, ih]

theorem emitL_defers (k m : Nat) (ds : List Cl) (bs : List Nat) (h : maxDefer = ds.length + k) :
    emitL (defers (k + m)) ds bs = emitL (defers k) ds bs := by
  induction k generalizing ds with
  | zero => rw [Nat.zero_add, emitL_defers_full _ _ _ (by omega)]; rfl
  | succ k ih =>
    have h1 : k + 1 + m = (k + m) + 1 := by omega
    have h2 : ds.length < maxDefer := by omega
    rw [h1]
    simp only [defers, emitL, emit, push, if_pos h2]
    rw [ih _ (by simp; omega)]

theorem okL_defers (k : Nat) (ds : List Cl) (bs : List Nat) (h : ds.length + k ≤ maxDefer) :
    okL (defers k) ds bs = true := by
  induction k generalizing ds with
  | zero => rfl
  | succ k ih =>
    have h2 : ds.length < maxDefer := by omega
    simp only [defers, okL, ok, emit, push, if_pos h2, Bool.and_eq_true, decide_eq_true_eq]
    exact ⟨h2, ih _ (by rw [List.length_cons]; omega)⟩

theorem runL_defers (orc : Nat → Bool) (n k : Nat) (σ : Spec.St) :
    ∃ ks, Spec.runL orc n (defers k) σ = (.norm, [], { σ with cl := ks ++ σ.cl }) ∧
      ∀ s, Spec.clean ks s = (List.replicate k (.use 1 []), s) := by
  induction k generalizing σ with
  | zero => exact ⟨[], rfl, fun _ => rfl⟩
  | succ k ih =>
    obtain ⟨ks, h1, h2⟩ := ih { σ with cl := .act (.use 1 []) σ.env :: σ.cl }
    refine ⟨ks ++ [.act (.use 1 []) σ.env], ?_, fun s => ?_⟩
    · simp [defers, Spec.runL, Spec.run, h1]
    · rw [clean_append, h2]
      simp [Spec.clean, Spec.clean1, Spec.act, ← List.replicate_succ']

theorem depth_defers (k : Nat) : depthL (defers k) = 0 := by
  induction k with
  | zero => rfl
  | succ k ih => simp [defers, depthL, depth, ih]

theorem spec_defers (orc : Nat → Bool) (n k : Nat) :
    Spec.behaviour orc n (func [] (defers k)) = (.norm, List.replicate k (.use 1 [])) := by
  obtain ⟨ks, h1, h2⟩ := runL_defers orc n k ⟨[], [], sto0⟩
  simp [Spec.behaviour, func, params, Spec.run, Spec.runL, Spec.s0, h1, Spec.leave, Spec.back, h2,
    Spec.clean]

theorem many_defers (k : Nat) (hk : maxDefer = k) (m : Nat) (orc : Nat → Bool) (n : Nat) :
    behaviour orc n (func [] (defers (k + m))) =
      some (.norm, List.replicate k (.use 1 [])) ∧
    Spec.behaviour orc n (func [] (defers (k + m))) =
      (.norm, List.replicate (k + m) (.use 1 [])) := by
  refine ⟨?_, spec_defers orc n _⟩
  have he : behaviour orc n (func [] (defers (k + m))) =
      behaviour orc n (func [] (defers k)) := by
    have h1 := emitL_defers k m [] [] (by simpa using hk)
    unfold behaviour compile
    simp only [func, params, depth, depthL, depth_defers, emit, emitL, h1]
  have hf : Fits [] (defers k) := by
    refine ⟨?_, ?_⟩
    · simp only [params, okL, ok, Bool.and_true]
      exact okL_defers k [] [] (by simp [hk])
    · simp [func, params, depth, depthL, depth_defers]
  have hr : ∀ k, noRetMoveL (defers k) = true := by
    intro k
    induction k with
    | zero => rfl
    | succ k ih => simp [defers, noRetMoveL, noRetMove, ih]
  rw [he, defers_same_partial [] (defers k) hf orc n (hr _), spec_defers]
  rw [spec_defers]
  intro v hv
  exact absurd (List.eq_of_mem_replicate hv) (by intro e; cases e)

/-- Beyond 1024 live deferred statements the rest is silently forgotten: a function with
`1024 + m` of them runs 1024. -/
theorem many_defers_violated (m : Nat) (orc : Nat → Bool) (n : Nat) :
    behaviour orc n (func [] (defers (1024 + m))) =
      some (.norm, List.replicate 1024 (.use 1 [])) ∧
    Spec.behaviour orc n (func [] (defers (1024 + m))) =
      (.norm, List.replicate (1024 + m) (.use 1 [])) :=
  many_defers 1024 rfl m orc n

/-- nested loops -/
def nest : Nat → Stmt
  | 0 => .block .nil
  | k + 1 => .loop none (.block (.cons (nest k) .nil))

/-- The 65th nested loop is recorded outside the table of 64 entries: no program is defined. -/
theorem deep_loops_violated : compile (func [] (.cons (nest 65) .nil)) = none := by decide +kernel

/-! ## Violations (C46) -/

/-- `let x = T(); x = T();` destroys only the second object. -/
theorem assign_leak_violated :
    ∃ b : Block, behaviour (fun _ => true) 1 (func [] b) =
        some (.norm, [.new 0, .new 1, .drop (.obj 1)]) ∧
      ¬ OnceEach [.new 0, .new 1, .drop (.obj 1)] :=
  ⟨body [.decl 0, .assign 0], by decide +kernel, fun h => by
    have := h 0 (by simp)
    revert this; decide +kernel⟩

/-- `let x = T(); take(x); x = T();`: the flag stays cleared, the new object is never destroyed. -/
theorem reinit_leak_violated :
    ∃ b : Block, behaviour (fun _ => true) 1 (func [] b) =
        some (.norm, [.new 0, .given (.obj 0), .new 1]) ∧
      ¬ OnceEach [.new 0, .given (.obj 0), .new 1] :=
  ⟨body [.decl 0, .act (.consume 0), .assign 0], by decide +kernel, fun h => by
    have := h 1 (by simp)
    revert this; decide +kernel⟩

/-- `let x = T(); { let x = T(); return; }`: the inner object is destroyed twice, the outer one
never. -/
theorem shadow_double_drop_violated :
    ∃ b : Block, behaviour (fun _ => true) 1 (func [] b) =
        some (.ret, [.new 0, .new 1, .drop (.obj 1), .drop (.obj 1)]) ∧
      ¬ OnceEach [.new 0, .new 1, .drop (.obj 1), .drop (.obj 1)] :=
  ⟨body [.decl 0, .block (body [.decl 0, .ret])], by decide +kernel, fun h => by
    have := h 0 (by simp)
    revert this; decide +kernel⟩

/-- `let x = T(); e?;` leaks `x` when `e` fails. -/
theorem try_leak_violated :
    ∃ b : Block, behaviour (fun _ => false) 1 (func [] b) = some (.ret, [.new 0, .test 0 false]) ∧
      ¬ OnceEach [.new 0, .test 0 false] :=
  ⟨body [.decl 0, .attempt 0], by decide +kernel, fun h => by
    have := h 0 (by simp)
    revert this; decide +kernel⟩

/-- `let x = T(); return x;` calls the destructor on the variable that was just moved out. -/
theorem ghost_violated :
    ∃ b : Block, Fits [] b ∧ behaviour (fun _ => true) 1 (func [] b) =
        some (.ret, [.new 0, .given (.obj 0), .drop .gone]) ∧
      ¬ NoGhost [.new 0, .given (.obj 0), .drop .gone] :=
  ⟨body [.decl 0, .retMove 0], by decide +kernel, by decide +kernel, fun h => by
    obtain ⟨i, hi⟩ := h .gone (by simp)
    exact absurd hi (by simp)⟩

end Verif.Defer
