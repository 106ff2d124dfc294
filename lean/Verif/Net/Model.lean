import Verif.Basic

/-!
# Model of sockets

`TcpStream` and `TcpListener` (std/net/tcp.zc), `UdpSocket` (std/net/udp.zc) and the functions they call (std/sys/net.zc:36-153), on a system whose
descriptors stand for connections.

Simplified: POSIX, not Windows; the three kinds of variables are treated alike, as they hold a descriptor in the same way; the bytes that are
read and written are those of the unit `WebSocket`; names of hosts are left out.
-/

namespace Verif.Net

/-- The system (what the kernel keeps for the process): which descriptors are open and what they stand for, and how many sockets
were made.  Sockets are numbered in the order in which they are made. -/
structure OS where
  table : Int → Option Nat
  next : Nat

/-- What happens at the system, and to which socket: `none` stands for a call with a descriptor that is not open, which the system rejects. -/
inductive Ev where
  | opened (c : Nat)
  | used (c : Option Nat)
  | closed (c : Option Nat)
  deriving DecidableEq, Repr

/-- `socket` and `accept` (std/sys/net.zc:36-43, 111-117) with the answer `fd` of the system. -/
def OS.make (os : OS) (fd : Nat) : OS × List Ev :=
  (⟨fun i => if i = fd then some os.next else os.table i, os.next + 1⟩, [.opened os.next])

/-- `_z_close` (std/sys/net.zc:45-51). -/
def OS.close (os : OS) (fd : Int) : OS × List Ev :=
  (⟨fun i => if i = fd then none else os.table i, os.next⟩, [.closed (os.table fd)])

/-- What a program does with its variables, with the answers of the system: `open` is `connect` or `bind`, with the descriptor that `socket` gives and
the answer of `_z_net_connect`, `_z_net_bind` or `_z_net_bind_udp`; `use` is a call of `read`, `write`, `recv_from` or `send_to`; `move` is
`let w = v`; `drop` is the end of the variable. -/
inductive Op where
  | «open» (fd : Option Nat) (res : Int)
  | accept (l : Nat) (fd : Option Nat)
  | use (v : Nat)
  | close (v : Nat)
  | move (v : Nat)
  | drop (v : Nat)
  deriving DecidableEq, Repr

/-- The process: the field `handle` of every variable. -/
structure St where
  os : OS
  vars : List Int

/-- The field `handle` of a variable; what does not exist is taken to be zero. -/
def St.handle (st : St) (v : Nat) : Int := st.vars[v]?.getD 0

/-- `close` (std/net/tcp.zc:38-43, 87-92; std/net/udp.zc:58-65). -/
def St.closeVar (st : St) (v : Nat) : St × List Ev :=
  if st.handle v > 0 then (⟨(st.os.close (st.handle v - 1)).1, st.vars.set v 0⟩, (st.os.close (st.handle v - 1)).2) else (st, [])

/-- One operation.  A call that fails gives a `Result` whose value is zero. -/
def step (st : St) : Op → St × List Ev
  -- std/net/tcp.zc:45-54, 68-80; std/net/udp.zc:18-32
  | .open none _ => (⟨st.os, st.vars ++ [0]⟩, [])
  | .open (some fd) res =>
    let r := st.os.make fd
    if res = -1 ∨ res = -2 ∨ res = -3 then
      let r' := r.1.close fd
      (⟨r'.1, st.vars ++ [0]⟩, r.2 ++ r'.2)
    else (⟨r.1, st.vars ++ [(fd : Int) + 1]⟩, r.2)
  -- std/net/tcp.zc:81-85
  | .accept l none => (⟨st.os, st.vars ++ [0]⟩, [.used (st.os.table (st.handle l - 1))])
  | .accept l (some fd) =>
    (⟨(st.os.make fd).1, st.vars ++ [(fd : Int) + 1]⟩, .used (st.os.table (st.handle l - 1)) :: (st.os.make fd).2)
  -- std/net/tcp.zc:14-18, 32-36; std/net/udp.zc:34-56
  | .use v => (st, [.used (st.os.table (st.handle v - 1))])
  | .close v => st.closeVar v
  -- src/codegen/codegen_utils.c:929-936: the variable is set to zero
  | .move v => (⟨st.os, st.vars.set v 0 ++ [st.handle v]⟩, [])
  -- std/net/tcp.zc:57-61, 95-99; std/net/udp.zc:68-72
  | .drop v => st.closeVar v

/-- A run. -/
def run (st : St) : List Op → St × List Ev
  | [] => (st, [])
  | op :: ops => ((run (step st op).1 ops).1, (step st op).2 ++ (run (step st op).1 ops).2)

/-- A second variable with the same descriptor: `expect` of a `Result` gives its value and keeps it (std/result.zc:48-54), other than `unwrap` (30-38), which is a `move`. -/
def copy (st : St) (v : Nat) : St := ⟨st.os, st.vars ++ [st.handle v]⟩

/-- `htons(port)` (std/sys/net.zc:64, 83, 100, 145): the port that is asked for at the system. -/
def port (p : Int) : Nat := (p % 65536).toNat

/-! ## specification -/

namespace Spec

/-- Variables hold sockets, or nothing; sockets are numbered as they are made. -/
structure Abs where
  vars : List (Option Nat)
  next : Nat

/-- What a variable holds. -/
def Abs.held (a : Abs) (v : Nat) : Option Nat := a.vars[v]?.getD none

/-- Giving up what a variable holds. -/
def Abs.give (a : Abs) (v : Nat) : Abs × List Ev :=
  match a.held v with
  | some c => (⟨a.vars.set v none, a.next⟩, [.closed (some c)])
  | none => (a, [])

/-- What should happen. -/
def step (a : Abs) : Op → Abs × List Ev
  | .open none _ => (⟨a.vars ++ [none], a.next⟩, [])
  | .open (some _) res =>
    if res = 0 then (⟨a.vars ++ [some a.next], a.next + 1⟩, [.opened a.next])
    else (⟨a.vars ++ [none], a.next + 1⟩, [.opened a.next, .closed (some a.next)])
  | .accept l none => (⟨a.vars ++ [none], a.next⟩, [.used (a.held l)])
  | .accept l (some _) => (⟨a.vars ++ [some a.next], a.next + 1⟩, [.used (a.held l), .opened a.next])
  | .use v => (a, [.used (a.held v)])
  | .close v => a.give v
  | .move v => (⟨a.vars.set v none ++ [a.held v], a.next⟩, [])
  | .drop v => a.give v

/-- A run. -/
def run (a : Abs) : List Op → Abs × List Ev
  | [] => (a, [])
  | op :: ops => ((run (step a op).1 ops).1, (step a op).2 ++ (run (step a op).1 ops).2)

/-- The system gives only descriptors that are not open, and its answers are those of the functions. -/
def Honest (st : St) : List Op → Prop
  | [] => True
  | op :: ops => (match op with
      | .open (some fd) res => st.os.table fd = none ∧ (res = 0 ∨ res = -1 ∨ res = -2 ∨ res = -3)
      | .accept _ (some fd) => st.os.table fd = none
      | _ => True) ∧ Honest (Net.step st op).1 ops

end Spec
end Verif.Net
