import Verif.Spec.Utf8
/-
The meaning of regular expressions in Go's package regexp, for the operators used in this repository:
classes of characters, sequence, alternatives, greedy repetition, captures, end of text. Of all matches
that begin leftmost, Go takes the one a backtracking engine would find first (documentation of package
regexp); `run` lists all ways to match at a place in the order in which such an engine tries them.

The text is a list of units with a function that reads one character: the code of the character and its
number of units. For bytes this is `decode`, for characters `one`.
-/
namespace Verif.Spec

/-- A class of characters: ranges of codes, or all characters not in them. -/
structure Cls where
  neg : Bool
  ranges : List (Nat × Nat)
  deriving DecidableEq

/-- The character is in the class. -/
def Cls.has (c : Cls) (r : Nat) : Bool := (c.ranges.any fun x => x.1 ≤ r && r ≤ x.2) != c.neg

/-- Regular expressions. -/
inductive Rex where
  | eps
  | cls (c : Cls)
  | fin
  | seq (a b : Rex)
  | alt (a b : Rex)
  | star (a : Rex)
  | cap (n : Nat) (a : Rex)
  deriving DecidableEq

/-- What captures hold, the latest first. -/
abbrev Caps (β : Type) := List (Nat × List β)

/-- Repetition, greedy: once more first. A round that matches nothing ends it (none of the expressions
repeated in this repository can match nothing, see `Rex.solid`). -/
def again {β : Type} (f : List β × Caps β → List (List β × Caps β)) : Nat → List β × Caps β → List (List β × Caps β)
  | 0, st => [st]
  | n + 1, st => ((f st).filter fun q => decide (q.1.length < st.1.length)).flatMap (again f n) ++ [st]

/-- All ways to match at the beginning of the text, the preferred one first: what is left of the text, and
the captures. -/
def Rex.run {β : Type} (next : List β → Option (Nat × Nat)) : Rex → List β × Caps β → List (List β × Caps β)
  | .eps, st => [st]
  | .cls c, st =>
    match next st.1 with
    | some (r, w) => if c.has r then [(st.1.drop w, st.2)] else []
    | none => []
  | .fin, st => if st.1.length = 0 then [st] else []
  | .seq a b, st => (a.run next st).flatMap (b.run next)
  | .alt a b, st => a.run next st ++ b.run next st
  | .star a, st => again (a.run next) st.1.length st
  | .cap n a, st => (a.run next st).map fun q => (q.1, (n, st.1.take (st.1.length - q.1.length)) :: q.2)

/-- The expression cannot match the empty text. -/
def Rex.needs : Rex → Bool
  | .eps => false
  | .cls _ => true
  | .fin => false
  | .seq a b => a.needs || b.needs
  | .alt a b => a.needs && b.needs
  | .star _ => false
  | .cap _ a => a.needs

/-- Nothing is repeated that can match the empty text. -/
def Rex.solid : Rex → Bool
  | .eps => true
  | .cls _ => true
  | .fin => true
  | .seq a b => a.solid && b.solid
  | .alt a b => a.solid && b.solid
  | .star a => a.needs && a.solid
  | .cap _ a => a.solid

/-- The first character of a string of bytes, and its width: as `utf8.DecodeRune` of Go has it. A byte
that does not begin a character is U+FFFD. -/
def decode : List UInt8 → Option (Nat × Nat)
  | [] => none
  | a :: s =>
    match runeLen (a :: s), s with
    | 2, b :: _ => some ((a.toNat - 0xC0) * 64 + (b.toNat - 0x80), 2)
    | 3, b :: c :: _ => some (((a.toNat - 0xE0) * 64 + (b.toNat - 0x80)) * 64 + (c.toNat - 0x80), 3)
    | 4, b :: c :: d :: _ =>
      some ((((a.toNat - 0xF0) * 64 + (b.toNat - 0x80)) * 64 + (c.toNat - 0x80)) * 64 + (d.toNat - 0x80), 4)
    | _, _ => some (if a.toNat < 0x80 then a.toNat else 0xFFFD, 1)

/-- The first character of a list of characters. -/
def one : List Char → Option (Nat × Nat)
  | [] => none
  | c :: _ => some (c.toNat, 1)

/-- The match at the beginning of the text, if any. -/
def Rex.first {β : Type} (next : List β → Option (Nat × Nat)) (r : Rex) (s : List β) : Option (List β × Caps β) :=
  (r.run next (s, [])).head?

/-- The length of the match at the beginning of a string of bytes. -/
def Rex.len (r : Rex) (s : List UInt8) : Option Nat := (r.first decode s).map fun q => s.length - q.1.length

/-- The first match in a text, from left to right: the text matched and the captures. -/
def Rex.find {β : Type} (next : List β → Option (Nat × Nat)) (r : Rex) : Nat → List β → Option (List β × Caps β)
  | 0, s => (r.first next s).map fun q => (s.take (s.length - q.1.length), q.2)
  | n + 1, s =>
    match r.first next s with
    | some q => some (s.take (s.length - q.1.length), q.2)
    | none =>
      match next s with
      | some (_, w) => r.find next n (s.drop w)
      | none => none

/-- What a capture holds: the latest, the empty text if there is none (as `FindStringSubmatch` returns it). -/
def group {β : Type} (k : Caps β) (n : Nat) : List β :=
  match k.find? (·.1 == n) with
  | some q => q.2
  | none => []

end Verif.Spec
