import Verif.Str.Model
import Verif.BuildFlags.Model

/-!
# The regex plugin: model

`regex_transpile` and `emit_match_logic` (plugins/regex.c:10-229): the C function written for a pattern
is a list of operations, `run` is the meaning of that function on a C string.

Simplified: white space is skipped at every place of the pattern (plugins/regex.c:17-30, 56-60, 90-94,
124-137, 140-150, 158-163, 204-209), so the model removes it first.
-/

namespace Verif.RegexPlugin

open Verif.Str (Byte)
open Verif.BuildFlags (cut isSpace)

/-- quantifier of a class -/
inductive Quant where
  | one | plus | star
deriving DecidableEq

/-- a class: inverted or not, and its tests `*c >= lo && *c <= hi` (`*c == b` is `b`, `b`) -/
structure Cls where
  neg : Bool
  tests : List (Byte × Byte)

/-- operations of the generated function -/
inductive Op where
  /-- `if (*c != '\0') return 0;` -/
  | eof
  /-- `if (*c == 0) return 0; c++;` -/
  | dot
  /-- `if (*c != 'b') return 0; c++;` -/
  | lit (b : Byte)
  /-- the block of a class (plugins/regex.c:99-202) -/
  | cls (k : Cls) (q : Quant)

/-- the tests of a class, from the text between the brackets behind `^` (plugins/regex.c:139-171) -/
def tests : List Byte → List (Byte × Byte)
  | [] => []
  | a :: 45 :: b :: r => (a, b) :: tests r
  | a :: r => (a, a) :: tests r

/-- a class from the text between its brackets (plugins/regex.c:121-171) -/
def parseCls : List Byte → Cls
  | 94 :: r => ⟨true, tests r⟩
  | r => ⟨false, tests r⟩

/-- `emit_match_logic` (plugins/regex.c:52-229) on a pattern without white space; the first argument
bounds the rounds.  A class without its end stops the function: nothing further is tested. -/
def emitF : Nat → List Byte → List Op
  | 0, _ => []
  | _ + 1, [] => []
  | f + 1, c :: r =>
      if c = 94 then emitF f r
      else if c = 36 then .eof :: emitF f r
      else if c = 91 then
        match cut 93 r with
        | none => []
        | some (body, rest) =>
            match rest with
            | 43 :: rest => .cls (parseCls body) .plus :: emitF f rest
            | 42 :: rest => .cls (parseCls body) .star :: emitF f rest
            | rest => .cls (parseCls body) .one :: emitF f rest
      else if c = 46 then .dot :: emitF f r
      else .lit c :: emitF f r

/-- the function for a pattern -/
def emit (pattern : List Byte) : List Op :=
  let p := pattern.filter fun c => !isSpace c
  emitF (p.length + 1) p

/-- a byte as `char` -/
def sc (b : Byte) : Int := b.toInt8.toInt

/-- the tests of a class on a character of the text -/
def Cls.holds (k : Cls) (c : Byte) : Bool :=
  (k.tests.any fun t => sc t.1 ≤ sc c && sc c ≤ sc t.2) != k.neg

/-- what the function returns, at a place of the text -/
def run : List Op → List Byte → Bool
  | [], _ => true
  | .eof :: ops, t => t.isEmpty && run ops t
  | .dot :: _, [] => false
  | .dot :: ops, _ :: t => run ops t
  | .lit _ :: _, [] => false
  | .lit b :: ops, c :: t => c == b && run ops t
  | .cls _ .one :: _, [] => false
  | .cls k .one :: ops, c :: t => k.holds c && run ops t
  | .cls k .plus :: ops, t =>
      (match t with | c :: _ => k.holds c | [] => false) && run ops (t.dropWhile k.holds)
  | .cls k .star :: ops, t => run ops (t.dropWhile k.holds)

/-- `'b'` is a character constant of C -/
def charOk (b : Byte) : Bool := b != 39 && b != 92

/-- the operation is C -/
def Op.ok : Op → Bool
  | .lit b => charOk b
  | .cls k _ => k.tests.all fun t => charOk t.1 && charOk t.2
  | _ => true

/-- the matcher of a pattern: `none` if the C compiler does not take it -/
def matcher (pattern : List Byte) (text : List Byte) : Option Bool :=
  if (emit pattern).all Op.ok then some (run (emit pattern) text) else none

/-! ## Regular expressions -/

namespace Spec

/-- what one character may be -/
inductive Base where
  | lit (b : Byte)
  | dot
  | cls (neg : Bool) (ranges : List (Byte × Byte))

/-- one character, one or more, any number -/
structure Item where
  base : Base
  quant : Quant

/-- a pattern with its anchors -/
structure Pat where
  atStart : Bool
  items : List Item
  atEnd : Bool

/-- the character is one of them -/
def Base.Has : Base → Byte → Prop
  | .lit b, c => c = b
  | .dot, _ => True
  | .cls false rs, c => ∃ r ∈ rs, r.1.toNat ≤ c.toNat ∧ c.toNat ≤ r.2.toNat
  | .cls true rs, c => ¬ ∃ r ∈ rs, r.1.toNat ≤ c.toNat ∧ c.toNat ≤ r.2.toNat

/-- texts of a list of items -/
inductive Lang : List Item → List Byte → Prop where
  | nil : Lang [] []
  | one {b is c w} : Base.Has b c → Lang is w → Lang (⟨b, .one⟩ :: is) (c :: w)
  | stop {b is w} : Lang is w → Lang (⟨b, .star⟩ :: is) w
  | more {b is c w} : Base.Has b c → Lang (⟨b, .star⟩ :: is) w → Lang (⟨b, .star⟩ :: is) (c :: w)
  | plus {b is c w} : Base.Has b c → Lang (⟨b, .star⟩ :: is) w → Lang (⟨b, .plus⟩ :: is) (c :: w)

/-- the pattern matches somewhere in the text -/
def Pat.Matches (p : Pat) (t : List Byte) : Prop :=
  ∃ a w z, t = a ++ (w ++ z) ∧ Lang p.items w ∧ (p.atStart = true → a = []) ∧ (p.atEnd = true → z = [])

/-- text of a range -/
def rangeText (r : Byte × Byte) : List Byte := if r.1 = r.2 then [r.1] else [r.1, 45, r.2]

/-- text of a character -/
def Base.text : Base → List Byte
  | .lit b => [b]
  | .dot => [46]
  | .cls neg rs => 91 :: ((if neg then [94] else []) ++ (rs.flatMap rangeText ++ [93]))

/-- text of a quantifier -/
def quantText : Quant → List Byte
  | .one => []
  | .plus => [43]
  | .star => [42]

/-- text of an item -/
def Item.text (i : Item) : List Byte := i.base.text ++ quantText i.quant

/-- text of a pattern -/
def Pat.text (p : Pat) : List Byte :=
  (if p.atStart then [94] else []) ++ (p.items.flatMap Item.text ++ (if p.atEnd then [36] else []))

/-- characters with no meaning of their own, in ASCII -/
def Plain (c : Byte) : Prop :=
  33 ≤ c ∧ c ≤ 126 ∧ c ∉ ([36, 39, 40, 41, 42, 43, 45, 46, 63, 91, 92, 93, 94, 123, 124, 125] : List Byte)

/-- items the plugin knows: quantifiers behind classes only -/
def Item.Ok (i : Item) : Prop :=
  match i.base with
  | .lit b => Plain b ∧ i.quant = .one
  | .dot => i.quant = .one
  | .cls _ rs => rs ≠ [] ∧ ∀ r ∈ rs, Plain r.1 ∧ Plain r.2

/-- some text of the items begins with this character -/
def First (is : List Item) (c : Byte) : Prop := ∃ w, Lang is (c :: w)

/-- the end of a repetition shows at the next character -/
def Det : List Item → Prop
  | [] => True
  | i :: is => (i.quant ≠ .one → ∀ c, Base.Has i.base c → ¬ First is c) ∧ Det is

end Spec

end Verif.RegexPlugin
