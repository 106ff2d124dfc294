import Verif.Str.Model

/-!
# Regular expressions of the standard library: model

`Regex::count` and `Regex::split` (std/regex.zc:114-163).  The library underneath (TRE) is a parameter:
`found t` says whether `tre_regexec` finds a match somewhere in `t`.
-/

namespace Verif.StdRegex

open Verif.Str (Byte)

/-- the loop of `Regex::count` (std/regex.zc:114-129) from position `pos` on; the first argument bounds
the turns -/
def countF (found : List Byte → Bool) (t : List Byte) : Nat → Nat → Nat → Nat
  | 0, _, n => n
  | f + 1, pos, n =>
      if pos < t.length then
        if found (t.drop pos) then countF found t f (pos + 1) (n + 1) else n
      else n

/-- `Regex::count` -/
def count (found : List Byte → Bool) (t : List Byte) : Nat := countF found t (t.length + 1) 0 0

/-- the loop of `Regex::split` (std/regex.zc:131-163): position, end of the last match, parts so far -/
def splitF (found : List Byte → Bool) (t : List Byte) : Nat → Nat → Nat → List (List Byte) → List (List Byte)
  | 0, _, _, parts => parts
  | f + 1, pos, last, parts =>
      if pos < t.length then
        if found (t.drop pos) then
          splitF found t f (pos + 1) (pos + 1)
            (if pos > last then parts ++ [(t.drop last).take (pos - last)] else parts)
        else splitF found t f (pos + 1) last parts
      else if last < t.length then parts ++ [t.drop last] else parts

/-- `Regex::split` -/
def split (found : List Byte → Bool) (t : List Byte) : List (List Byte) := splitF found t (t.length + 1) 0 0 []

namespace Spec

/-- the words of the expression occur in the text -/
def Occurs (L : List Byte → Prop) (t : List Byte) : Prop := ∃ a w z, t = a ++ (w ++ z) ∧ L w

/-- `found` is search for `L` -/
def Searches (found : List Byte → Bool) (L : List Byte → Prop) : Prop := ∀ t, found t = true ↔ Occurs L t

/-- `n` disjoint occurrences, one behind the other, with none in between: the number of non-overlapping
matches -/
inductive Count (L : List Byte → Prop) : List Byte → Nat → Prop where
  | none {t} : ¬ Occurs L t → Count L t 0
  | next {a w r n} : L w → w ≠ [] → (∀ b x z, a ++ (w ++ r) = b ++ (x ++ z) → L x → a.length ≤ b.length) →
      Count L r n → Count L (a ++ (w ++ r)) (n + 1)

/-- the parts between them -/
inductive Split (L : List Byte → Prop) : List Byte → List (List Byte) → Prop where
  | none {t} : ¬ Occurs L t → Split L t [t]
  | next {a w r ps} : L w → w ≠ [] → (∀ b x z, a ++ (w ++ r) = b ++ (x ++ z) → L x → a.length ≤ b.length) →
      Split L r ps → Split L (a ++ (w ++ r)) (a :: ps)

end Spec

end Verif.StdRegex
