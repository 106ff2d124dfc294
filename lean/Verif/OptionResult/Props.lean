import Verif.OptionResult.Model

/-! Property C44: Option and Result. -/

namespace Verif.OptionResult
open Verif

variable {α : Type}

/-- Calls that do not take the value out. -/
def Call.reads : Call α → Prop
  | .unwrap => False
  | .forget => False
  | _ => True

/-- Specification on Lean's own `Option`: `none` of the result is a panic. -/
def Spec.read (o : Option α) : Call α → Option (Ret α)
  | .isSome => some (.bool o.isSome)
  | .isNone => some (.bool o.isNone)
  | .unwrapRef => o.map .val
  | .expect => o.map .val
  | .unwrap => o.map .val
  | .unwrapOr d => some (.val (o.getD d))
  | .orElse other => match o with
    | some v => some (.opt ⟨true, v⟩)
    | none => some (.opt other)
  | .forget => some .unit

/-- The object representing an `Option` value. -/
def rep (zero : α) : Option α → Opt α
  | some v => mkSome v
  | none => mkNone zero

/-- Results of a list of reading calls on an unchanged option, as the specification gives them:
up to the first panic. -/
def Spec.readAll (o : Option α) : List (Call α) → Res (List (Ret α))
  | [] => .ok []
  | c :: cs =>
    match Spec.read o c with
    | none => .panic
    | some r => match Spec.readAll o cs with
      | .ok rs => .ok (r :: rs)
      | .panic => .panic
      | .ub => .ub

/-- **C44 (partial), Option.**  Any number of tests and reads, optionally followed by one `unwrap`,
gives what the mathematical option gives: `unwrap`, `unwrap_ref` and `expect` return the stored
value exactly when the tag says present and panic otherwise; `unwrap_or` and `or_else` choose
by the tag.  Missing: calls after a value was taken out (see `unwrap_twice_violated`). -/
theorem option_reads_partial (zero : α) (o : Option α) (cs : List (Call α)) (hc : ∀ c ∈ cs, c.reads)
    (last : List (Call α)) (hl : last = [] ∨ last = [.unwrap]) :
    run zero (rep zero o) (cs ++ last) = Spec.readAll o (cs ++ last) := by
  induction cs with
  | nil =>
    rcases hl with rfl | rfl
    · rfl
    · cases o <;> rfl
  | cons c cs ih =>
    have ih := ih (fun c hc' => hc c (List.mem_cons_of_mem _ hc'))
    have h0 := hc c (by simp)
    simp only [List.cons_append]
    unfold run Spec.readAll
    rw [← ih]
    cases o <;> cases c <;> first | exact absurd h0 id | (simp [rep, mkSome, mkNone, step, Spec.read]) <;>
      (try cases run zero _ (cs ++ last) <;> rfl)

example : (∀ c ∈ [Call.isSome, .expect, .unwrapOr 7, .orElse ⟨false, 0⟩], (c : Call Nat).reads) ∧
    run 0 (rep 0 (some 5)) [Call.isSome, .expect, .unwrapOr 7, .orElse ⟨false, 0⟩, .unwrap]
      = .ok [.bool true, .val 5, .val 5, .opt ⟨true, 5⟩, .val 5] := by
  refine ⟨?_, by decide⟩
  intro c hc
  simp at hc
  rcases hc with rfl | rfl | rfl | rfl <;> exact trivial

/-- Reading an absent value always panics, whatever was called before. -/
theorem option_none_panics (zero : α) (cs : List (Call α)) (o : Opt α) (ho : o.isSome = false)
    (c : Call α) (hc : c = .unwrap ∨ c = .expect ∨ c = .unwrapRef) :
    ∀ rs, run zero o (cs ++ [c]) ≠ .ok rs := by
  induction cs generalizing o with
  | nil =>
    intro rs
    rcases hc with rfl | rfl | rfl <;> simp [run, step, ho]
  | cons d cs ih =>
    intro rs h
    simp only [List.cons_append] at h
    unfold run at h
    cases hs : step zero o d with
    | ok p =>
      obtain ⟨o', r⟩ := p
      rw [hs] at h
      have ho' : o'.isSome = false := by
        cases d <;> simp [step, ho] at hs <;> obtain ⟨rfl, _⟩ := hs <;> first | exact ho | rfl
      simp only [Res.ok_bind] at h
      cases hr : run zero o' (cs ++ [c]) with
      | ok rs' => exact ih o' ho' rs' hr
      | panic => rw [hr] at h; simp at h
      | ub => rw [hr] at h; simp at h
    | panic => rw [hs] at h; simp at h
    | ub => rw [hs] at h; simp at h

/-- Any calls on an option that holds the zero value, or none. -/
theorem option_zero_history (zero : α) (o : Option α) (ho : o = none ∨ o = some zero) (cs : List (Call α)) :
    run zero (rep zero o) cs = Spec.readAll o cs := by
  induction cs with
  | nil => rfl
  | cons c cs ih =>
    unfold run Spec.readAll
    rw [← ih]
    rcases ho with rfl | rfl <;> cases c <;> (simp [rep, mkSome, mkNone, step, Spec.read]) <;>
      (try cases run zero _ cs <;> rfl)

/-- **C44, histories.**  An option with a value, on which any tests and reads are made and which is
then unwrapped or forgotten, acts in everything that follows as an option that holds the zero
value: the value that was taken out is never given out again. -/
theorem option_taken (zero v : α) (cs : List (Call α)) :
    run zero (mkSome v) (.unwrap :: cs) = (Spec.readAll (some zero) cs).bind (fun rs => .ok (.val v :: rs)) ∧
    run zero (mkSome v) (.forget :: cs) = (Spec.readAll (some zero) cs).bind (fun rs => .ok (.unit :: rs)) := by
  have h := option_zero_history zero (some zero) (.inr rfl) cs
  constructor <;>
  · rw [← h]
    rfl

/-- **C44 violated.**  After `unwrap` moved the value out the option still claims to hold a value,
and a second `unwrap` does not panic but returns the zero value. -/
theorem unwrap_twice_violated (zero v : α) :
    run zero (mkSome v) [.unwrap, .isSome, .unwrap] = .ok [.val v, .bool true, .val zero] := rfl

/-- **C44 violated.**  `expect` hands out the value without moving it: two calls give out the same
owned value twice. -/
theorem expect_twice_violated (zero v : α) :
    run zero (mkSome v) [.expect, .expect] = .ok [.val v, .val v] := rfl

/-- Specification of result reads on Lean's `Except`. -/
def Spec.rread (o : Except String α) : RCall → Option (Ret α)
  | .isOk => some (.bool (match o with | .ok _ => true | .error _ => false))
  | .isErr => some (.bool (match o with | .ok _ => false | .error _ => true))
  | .forget => some .unit
  | _ => match o with | .ok v => some (.val v) | .error _ => none

/-- The object representing an `Except` value. -/
def rrep (zero : α) : Except String α → Result α
  | .ok v => mkOk v
  | .error e => mkErr zero e

/-- **C44 (partial), Result.**  Each call on a fresh result agrees with the mathematical sum
type; it panics exactly when a value is requested from an error.  Missing: calls after
`unwrap`/`forget` (same defect as for options, `result_unwrap_twice_violated`). -/
theorem result_reads_partial (zero : α) (o : Except String α) (c : RCall) :
    (match rstep zero (rrep zero o) c with
      | .ok (_, r) => some r
      | _ => none) = Spec.rread o c := by
  cases o <;> cases c <;> rfl

/-- `is_ok`/`is_err` are complementary in every state. -/
theorem result_tag_exclusive (zero : α) (o : Result α) :
    ∃ b, rstep zero o .isOk = .ok (o, .bool b) ∧ rstep zero o .isErr = .ok (o, .bool (!b)) :=
  ⟨o.isOk, rfl, rfl⟩

/-- The object after a history of calls. -/
def rexec (zero : α) (o : Result α) : List RCall → Res (Result α)
  | [] => .ok o
  | c :: cs => do
    let (o, _) ← rstep zero o c
    rexec zero o cs

/-- The public error field of a result as the sum type has it. -/
def Spec.errText : Except String α → Option String
  | .ok _ => none
  | .error e => some e

/-- **C44, error text.**  Whatever is called on a result, as long as nothing panics its error field
is the text it was built with, and its tag still tells which constructor built it. -/
theorem result_error_kept (zero : α) (o : Except String α) (cs : List RCall) (r : Result α)
    (h : rexec zero (rrep zero o) cs = .ok r) :
    r.err = Spec.errText o ∧ (r.isOk = true ↔ Spec.errText o = none) := by
  have key : ∀ (cs : List RCall) (r0 r : Result α), rexec zero r0 cs = .ok r →
      r.err = r0.err ∧ r.isOk = r0.isOk := by
    intro cs
    induction cs with
    | nil => intro r0 r h; cases h; exact ⟨rfl, rfl⟩
    | cons c cs ih =>
      intro r0 r h
      unfold rexec at h
      cases hs : rstep zero r0 c with
      | ok p =>
        obtain ⟨o', x⟩ := p
        rw [hs, Res.ok_bind] at h
        have := ih o' r h
        have h1 : o'.err = r0.err ∧ o'.isOk = r0.isOk := by
          cases c <;> simp only [rstep] at hs <;> (try split at hs) <;> cases hs <;> exact ⟨rfl, rfl⟩
        exact ⟨this.1.trans h1.1, this.2.trans h1.2⟩
      | panic => rw [hs] at h; cases h
      | ub => rw [hs] at h; cases h
  obtain ⟨h1, h2⟩ := key cs _ _ h
  rw [h1, h2]
  cases o <;> simp [rrep, mkOk, mkErr, Spec.errText]

example : rexec 0 (rrep 0 (.error "bad")) [.isOk, .forget, .isErr] = .ok ⟨false, 0, some "bad"⟩ := rfl

/-- Results of a list of calls on an unchanged result, up to the first panic. -/
def Spec.rreadAll (o : Except String α) : List RCall → Res (List (Ret α))
  | [] => .ok []
  | c :: cs =>
    match Spec.rread o c with
    | none => .panic
    | some r => match Spec.rreadAll o cs with
      | .ok rs => .ok (r :: rs)
      | .panic => .panic
      | .ub => .ub

/-- **C44, histories of a result.**  Any number of tests and reads, then any one call, give what the
sum type gives. -/
theorem result_history (zero : α) (o : Except String α) (cs : List RCall)
    (hc : ∀ c ∈ cs, c ≠ .unwrap ∧ c ≠ .forget) (last : RCall) :
    rrun zero (rrep zero o) (cs ++ [last]) = Spec.rreadAll o (cs ++ [last]) := by
  induction cs with
  | nil => cases o <;> cases last <;> rfl
  | cons c cs ih =>
    have ih := ih (fun c hc' => hc c (List.mem_cons_of_mem _ hc'))
    have h0 := hc c (by simp)
    simp only [List.cons_append]
    unfold rrun Spec.rreadAll
    rw [← ih]
    cases o <;> cases c <;> first | exact absurd rfl h0.1 | exact absurd rfl h0.2 |
      (simp [rrep, mkOk, mkErr, rstep, Spec.rread]) <;>
      (try cases rrun zero _ (cs ++ [last]) <;> rfl)

/-- **C44, histories of a result.**  What was taken out by `unwrap` or `forget` is never given out
again: everything that follows acts on the zero value.  An error stays what it is. -/
theorem result_taken (zero v : α) (cs : List RCall) :
    rrun zero (mkOk v) (.unwrap :: cs) = (Spec.rreadAll (.ok zero) cs).bind (fun rs => .ok (.val v :: rs)) ∧
    rrun zero (mkOk v) (.forget :: cs) = (Spec.rreadAll (.ok zero) cs).bind (fun rs => .ok (.unit :: rs)) ∧
    ∀ e, rrun zero (mkErr zero e) cs = Spec.rreadAll (.error e) cs := by
  have h : ∀ (o : Except String α), (o = .ok zero ∨ ∃ e, o = .error e) →
      rrun zero (rrep zero o) cs = Spec.rreadAll o cs := by
    intro o ho
    induction cs with
    | nil => rfl
    | cons c cs ih =>
      unfold rrun Spec.rreadAll
      rw [← ih]
      rcases ho with rfl | ⟨e, rfl⟩ <;> cases c <;> (simp [rrep, mkOk, mkErr, rstep, Spec.rread]) <;>
        (try cases rrun zero _ cs <;> rfl)
  refine ⟨?_, ?_, fun e => h _ (.inr ⟨e, rfl⟩)⟩ <;>
  · rw [← h _ (.inl rfl)]
    rfl

example : rrun 0 (mkOk 5) [.isOk, .expect, .expect] = Spec.rreadAll (.ok 5) [.isOk, .expect, .expect] ∧
    Spec.rreadAll (.ok 5) [.isOk, .expect, .expect] = .ok [.bool true, .val 5, .val 5] := ⟨rfl, rfl⟩

theorem result_unwrap_twice_violated (zero v : α) :
    rrun zero (mkOk v) [.unwrap, .isOk, .unwrap] = .ok [.val v, .bool true, .val zero] := rfl

end Verif.OptionResult
