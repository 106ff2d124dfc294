import Verif.HashMap.Model
import Verif.HashSet.Model

/-!
# Model of `std/time.zc`, `sleep_ms` of `std/thread.zc` and the seeded hash

Simplified: `usleep(n)` sleeps `n` microseconds (no signals); `rand()` is a parameter.
-/

namespace Verif.Time
open Verif

/-- `Duration::from_secs` (std/time.zc:38-40), in milliseconds. -/
def fromSecs (s : Nat) : Nat := s * 1000 % 2 ^ 64

/-- `Time::sleep`, `Time::sleep_ms` (std/time.zc:57-63): the microseconds passed to `usleep`. -/
def sleepMs (ms : Nat) : Nat := ms * 1000 % 2 ^ 64 % 2 ^ 32

/-- `sleep_ms` of `std/thread.zc:180-183`: the multiplication is of C type `int`; `usleep` takes an
unsigned number.  `none` is signed overflow. -/
def threadSleepMs (ms : Int) : Option Nat :=
  if -2 ^ 31 ≤ ms * 1000 ∧ ms * 1000 < 2 ^ 31 then some (ms * 1000 % 2 ^ 32).toNat else none

/-- `_map_hash_str` (std/map.zc:7-19) and `_set_hash` (std/set.zc:6-16) of the bytes, from the seed. -/
def hashStr (seed : Nat) (bytes : List UInt8) : Nat :=
  bytes.foldl (fun h b => (h ^^^ b.toNat) * 1099511628211 % 2 ^ 64) seed

/-- `Time::randomize_hash` (std/time.zc:48-51): the new seed. -/
def randomize (seed r : Nat) : Nat := seed ^^^ r

end Verif.Time
