import Verif.Basic

/-!
# Threads and mutexes: model

`std/thread.zc` with the C code in its `raw` block (std/thread.zc:14-75), and the POSIX functions it calls.
Threads run interleaved, in any order.

Simplified: a thread is a tree of the calls it makes, with the answer of each call deciding what comes next, so
that everything between the calls is left out; a value of a shared variable is read or written in one step, as
if all were sequentially consistent (what is proved about variables is for accesses under a mutex, for which
POSIX guarantees this); `malloc` and `pthread_create` fail at any time; what `spawn` does before the new thread
exists is one step, since nobody else sees it.  A handle is the number of the thread: POSIX may use a handle
again after `join`, but its use is undefined from then on, and so it is here.
-/

namespace Verif.Thread

/-- calls a thread makes -/
inductive Act where
  /-- `Thread::spawn` with a closure: function and captured environment -/
  | spawn (f c : Nat)
  | join (u : Nat)
  | detach (u : Nat)
  | cancel (u : Nat)
  /-- `Mutex::new` -/
  | mnew
  | lock (m : Nat)
  | unlock (m : Nat)
  /-- `Mutex.free`, also by `drop` -/
  | mfree (m : Nat)
  | load (x : Nat)
  | store (x : Nat) (v : Int)
  /-- `sleep_ms` -/
  | sleep

/-- what a thread does: each call and what comes after each answer (`spawn`: the thread, -1 for `Err`; `load`:
the value; `Mutex::new`: the mutex; `join`, `detach`, `cancel`: 1, 0 for `Err`) -/
inductive Code where
  | done
  | act (a : Act) (k : Int → Code)

/-- where a thread is in `_z_thread_trampoline` (std/thread.zc:22-29), with the copy of the closure it owns;
the main thread has none -/
inductive Phase where
  | start (b : Nat)
  | run (b : Option Nat) (c : Code)
  /-- before `free(c)` -/
  | fin (b : Nat)
  | ended

/-- a thread; `joinable` until joined or detached -/
structure Thr where
  phase : Phase
  joinable : Bool := true
  cancelled : Bool := false

/-- a copy of a closure: 16 bytes from `malloc` (std/thread.zc:104-107) -/
inductive Cell where
  | live (f c : Nat)
  | freed
  deriving DecidableEq

/-- a `pthread_mutex_t` -/
inductive Mx where
  | free
  | held (t : Nat)
  | destroyed
  deriving DecidableEq

/-- everything shared -/
structure State where
  thr : List Thr
  heap : List Cell
  mtx : List Mx
  mem : Nat → Int

/-- a thread goes on -/
def State.go (s : State) (t : Nat) (p : Phase) : State :=
  { s with thr := s.thr.modify t fun th => { th with phase := p } }

/-- a thread can no longer be joined -/
def State.release (s : State) (u : Nat) : State :=
  { s with thr := s.thr.modify u fun th => { th with joinable := false } }

/-- what happens -/
inductive Ev where
  | spawned (t u : Nat) (f c : Nat)
  | spawnFailed (t : Nat)
  | began (t : Nat) (f c : Nat)
  | finished (t : Nat)
  | freed (t : Nat) (b : Nat)
  | joined (t u : Nat)
  | joinFailed (t u : Nat)
  | detached (t u : Nat)
  | cancelled (t u : Nat)
  | died (t : Nat)
  | made (t : Nat) (m : Nat)
  | locked (t : Nat) (m : Nat)
  | unlocked (t : Nat) (m : Nat)
  | destroyed (t : Nat) (m : Nat)
  | loaded (t : Nat) (x : Nat) (v : Int)
  | stored (t : Nat) (x : Nat) (v : Int)
  | slept (t : Nat)
  deriving DecidableEq

/-- the thread is at this call -/
def State.At (s : State) (t : Nat) (b : Option Nat) (a : Act) (k : Int → Code) : Prop :=
  ∃ th, s.thr[t]? = some th ∧ th.phase = .run b (.act a k)

/-- the thread is in this phase -/
def State.In (s : State) (t : Nat) (p : Phase) : Prop := ∃ th, s.thr[t]? = some th ∧ th.phase = p

/-- calls at which a cancelled thread dies: cancellation points of POSIX -/
def Act.point : Act → Bool
  | .join _ | .sleep => true
  | _ => false

/-- one step of one thread -/
inductive Step (fns : Nat → Nat → Code) : State → Ev → State → Prop where
  /-- `f(closure->ctx)` (std/thread.zc:23-26) -/
  | begin {s t b f c} : s.In t (.start b) → s.heap[b]? = some (.live f c) →
      Step fns s (.began t f c) (s.go t (.run (some b) (fns f c)))
  /-- `f` returns -/
  | finish {s t b} : s.In t (.run (some b) .done) → Step fns s (.finished t) (s.go t (.fin b))
  /-- `free(c)` and the end (std/thread.zc:27-28) -/
  | free {s t b f c} : s.In t (.fin b) → s.heap[b]? = some (.live f c) →
      Step fns s (.freed t b) { s.go t .ended with heap := s.heap.set b .freed }
  /-- `malloc` fails (std/thread.zc:105) -/
  | spawnOom {s t b f c k} : s.At t b (.spawn f c) k →
      Step fns s (.spawnFailed t) (s.go t (.run b (k (-1))))
  /-- `pthread_create` fails (std/thread.zc:111-114) -/
  | spawnFail {s t b f c k} : s.At t b (.spawn f c) k →
      Step fns s (.spawnFailed t) { s.go t (.run b (k (-1))) with heap := s.heap ++ [.freed] }
  /-- it succeeds (std/thread.zc:101-117) -/
  | spawn {s t b f c k} : s.At t b (.spawn f c) k →
      Step fns s (.spawned t s.thr.length f c)
        { s with thr := (s.go t (.run b (k s.thr.length))).thr ++ [{ phase := .start s.heap.length }],
                 heap := s.heap ++ [.live f c] }
  /-- `pthread_join` waits for the end (std/thread.zc:120-126, 44-46) -/
  | join {s t b u k th} : s.At t b (.join u) k → s.thr[u]? = some th → th.phase = .ended → th.joinable = true →
      Step fns s (.joined t u) ((s.go t (.run b (k 1))).release u)
  /-- a thread that joins itself: `EDEADLK` -/
  | joinSelf {s t b k th} : s.At t b (.join t) k → s.thr[t]? = some th → th.joinable = true →
      Step fns s (.joinFailed t t) (s.go t (.run b (k 0)))
  /-- `pthread_detach` (std/thread.zc:128-134) -/
  | detach {s t b u k th} : s.At t b (.detach u) k → s.thr[u]? = some th → th.joinable = true →
      Step fns s (.detached t u) ((s.go t (.run b (k 1))).release u)
  /-- `pthread_cancel` (std/thread.zc:136-142): a request -/
  | cancel {s t b u k th} : s.At t b (.cancel u) k → s.thr[u]? = some th → th.joinable = true →
      Step fns s (.cancelled t u)
        { s with thr := (s.go t (.run b (k 1))).thr.modify u fun th => { th with cancelled := true } }
  /-- the request takes effect: the rest of the trampoline does not run -/
  | die {s t b a k th} : s.thr[t]? = some th → th.phase = .run (some b) (.act a k) → th.cancelled = true →
      a.point = true → Step fns s (.died t) (s.go t .ended)
  /-- `Mutex::new` (std/thread.zc:150-154) -/
  | mnew {s t b k} : s.At t b .mnew k →
      Step fns s (.made t s.mtx.length) { s.go t (.run b (k s.mtx.length)) with mtx := s.mtx ++ [.free] }
  /-- `pthread_mutex_lock` waits until the mutex is free (std/thread.zc:156-158) -/
  | lock {s t b m k} : s.At t b (.lock m) k → s.mtx[m]? = some .free →
      Step fns s (.locked t m) { s.go t (.run b (k 0)) with mtx := s.mtx.set m (.held t) }
  /-- `pthread_mutex_unlock` (std/thread.zc:160-162) -/
  | unlock {s t b m k} : s.At t b (.unlock m) k → s.mtx[m]? = some (.held t) →
      Step fns s (.unlocked t m) { s.go t (.run b (k 0)) with mtx := s.mtx.set m .free }
  /-- `Mutex.free` (std/thread.zc:164-170) -/
  | mfree {s t b m k} : s.At t b (.mfree m) k → s.mtx[m]? = some .free →
      Step fns s (.destroyed t m) { s.go t (.run b (k 0)) with mtx := s.mtx.set m .destroyed }
  | load {s t b x k} : s.At t b (.load x) k →
      Step fns s (.loaded t x (s.mem x)) (s.go t (.run b (k (s.mem x))))
  | store {s t b x v k} : s.At t b (.store x v) k →
      Step fns s (.stored t x v) { s.go t (.run b (k 0)) with mem := fun y => if y = x then v else s.mem y }
  | sleep {s t b k} : s.At t b .sleep k → Step fns s (.slept t) (s.go t (.run b (k 0)))

/-- the next step of some thread is undefined -/
inductive Bad : State → Prop where
  /-- the trampoline reads a freed closure -/
  | start {s t b} : s.In t (.start b) → s.heap[b]? = some .freed → Bad s
  /-- or frees it twice -/
  | free {s t b} : s.In t (.fin b) → s.heap[b]? = some .freed → Bad s
  /-- `join`, `detach` or `cancel` of a thread that is joined or detached -/
  | join {s t b u k th} : s.At t b (.join u) k → s.thr[u]? = some th → th.joinable = false → Bad s
  | detach {s t b u k th} : s.At t b (.detach u) k → s.thr[u]? = some th → th.joinable = false → Bad s
  | cancel {s t b u k th} : s.At t b (.cancel u) k → s.thr[u]? = some th → th.joinable = false → Bad s
  /-- of what is no thread -/
  | noThread {s t b u k a} : s.At t b a k → a = .join u ∨ a = .detach u ∨ a = .cancel u → s.thr[u]? = none → Bad s
  /-- `Mutex::new` does not look at what `malloc` returns (std/thread.zc:151-152) -/
  | mnew {s t b k} : s.At t b .mnew k → Bad s
  /-- a destroyed mutex, or none -/
  | lock {s t b m k} : s.At t b (.lock m) k → s.mtx[m]? = none ∨ s.mtx[m]? = some .destroyed → Bad s
  /-- a mutex that the thread does not hold -/
  | unlock {s t b m k} : s.At t b (.unlock m) k → s.mtx[m]? ≠ some (.held t) → Bad s
  /-- a mutex that is held, or destroyed -/
  | mfree {s t b m k} : s.At t b (.mfree m) k → s.mtx[m]? ≠ some .free → Bad s

/-- the main thread alone, with this many mutexes -/
def init (main : Code) (mutexes : Nat) (mem : Nat → Int) : State :=
  { thr := [{ phase := .run none main }], heap := [], mtx := List.replicate mutexes .free, mem }

/-- `main` has not returned; when it does all threads end -/
def Alive (s : State) : Prop := ¬ s.In 0 (.run none .done)

/-- executions, with what happened -/
inductive Exec (fns : Nat → Nat → Code) (s0 : State) : List Ev → State → Prop where
  | nil : Exec fns s0 [] s0
  | snoc {tr s e s'} : Exec fns s0 tr s → Alive s → Step fns s e s' → Exec fns s0 (tr ++ [e]) s'

/-- `sleep_ms` (std/thread.zc:180-183) and `_z_usleep` (std/thread.zc:72-74): the microseconds `usleep` gets, an
`unsigned`; the product is one of `int` -/
def sleepMs (ms : Int) : Res Nat :=
  if -(2 ^ 31) ≤ ms * 1000 ∧ ms * 1000 < 2 ^ 31 then .ok (ms * 1000 % 2 ^ 32).toNat else .ub

/-! ## What one relies on -/

namespace Spec

/-- the event was before this point of the trace -/
abbrev Earlier (e : Ev) (p : List Ev) : Prop := e ∈ p

/-- the thread locked the mutex and has not unlocked it -/
def Holds (t : Nat) (m : Nat) (p : List Ev) : Prop := ∃ a b, p = a ++ .locked t m :: b ∧ .unlocked t m ∉ b

/-- how often threads were spawned with what is counted by `n` -/
def spawnSum (n : Nat → Nat → Nat) : List Ev → Nat
  | [] => 0
  | .spawned _ _ f c :: r => n f c + spawnSum n r
  | _ :: r => spawnSum n r

/-- the code accesses variable `x` only while it holds mutex `m`, only to add one to what it read, and does so
`n` times; `h`: it holds the mutex; `l`: what it read -/
def Counts (m x : Nat) : Bool → Option Int → Nat → Code → Prop
  | h, _, n, .done => h = false ∧ n = 0
  | h, l, n, .act a k =>
    match a with
    | .lock m' => if m' = m then h = false ∧ ∀ r, Counts m x true none n (k r) else ∀ r, Counts m x h l n (k r)
    | .unlock m' => if m' = m then h = true ∧ ∀ r, Counts m x false none n (k r) else ∀ r, Counts m x h l n (k r)
    | .load y => if y = x then h = true ∧ ∀ r, Counts m x h (some r) n (k r) else ∀ r, Counts m x h l n (k r)
    | .store y v =>
        if y = x then h = true ∧ l = some (v - 1) ∧ ∃ n', n = n' + 1 ∧ ∀ r, Counts m x h none n' (k r)
        else ∀ r, Counts m x h l n (k r)
    | _ => ∀ r, Counts m x h l n (k r)

/-- threads are joined or detached by who spawned them, once; there is one mutex, which is not held while
waiting and at the end; `kids`: threads not joined or detached yet -/
def Tidy (m : Nat) : Bool → List Nat → Code → Prop
  | h, _, .done => h = false
  | h, kids, .act a k =>
    match a with
    | .spawn _ _ => ∀ r, Tidy m h (if r < 0 then kids else r.toNat :: kids) (k r)
    | .join u => h = false ∧ u ∈ kids ∧ ∀ r, Tidy m h (kids.erase u) (k r)
    | .detach u => u ∈ kids ∧ ∀ r, Tidy m h (kids.erase u) (k r)
    | .lock m' => m' = m ∧ h = false ∧ ∀ r, Tidy m true kids (k r)
    | .unlock m' => m' = m ∧ h = true ∧ ∀ r, Tidy m false kids (k r)
    | .load _ | .store _ _ | .sleep => ∀ r, Tidy m h kids (k r)
    | .cancel _ | .mnew | .mfree _ => False

/-- the events of a kind -/
def count (q : Ev → Bool) (tr : List Ev) : Nat := (tr.filter q).length

end Spec

end Verif.Thread
