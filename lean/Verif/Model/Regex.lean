/-
The part of Python's `re` module used by `QASM`
(src/mqt/qudits/quantum_circuit/qasm.py), and the string methods used next to it, on ASCII text.

A pattern is run as a backtracking matcher: `run` lists every way to match a prefix, in the order in
which Python tries them (greedy repetition, left alternative first); `match` takes the first one.
-/
namespace Qudits.Qasm

/-- Text. -/
abbrev Text := List Char

/-- The pattern syntax used by qasm.py:52-190. `cls` is one character out of a class. -/
inductive Re where
  | eps
  | cls (p : Char → Bool)
  | seq (a b : Re)
  | alt (a b : Re)
  | opt (a : Re)
  | star (a : Re)
  | grp (n : Nat) (a : Re)

/-- The groups captured so far, latest first: `match.group(n)`. -/
abbrev Caps := List (Nat × Text)

/-- `match.group(n)`: the last text captured by group `n`, `None` if it took no part. -/
def group (c : Caps) (n : Nat) : Option Text := (c.find? (·.1 == n)).map (·.2)

/-- Greedy repetition of the matcher `f`: one more round is tried first, stopping is tried last.
A round that consumes nothing is not repeated (none of the patterns has such a round). -/
def starRun (f : Text → Caps → List (Text × Caps)) : Nat → Text → Caps → List (Text × Caps)
  | 0, s, c => [(s, c)]
  | k + 1, s, c =>
    (f s c).flatMap (fun x => if x.1.length < s.length then starRun f k x.1 x.2 else []) ++ [(s, c)]

/-- All matches of a pattern at the start of `s`, as (remaining text, captures), in Python's order. -/
def Re.run : Re → Text → Caps → List (Text × Caps)
  | .eps, s, c => [(s, c)]
  | .cls _, [], _ => []
  | .cls p, x :: s, c => if p x then [(s, c)] else []
  | .seq a b, s, c => (a.run s c).flatMap fun x => b.run x.1 x.2
  | .alt a b, s, c => a.run s c ++ b.run s c
  | .opt a, s, c => a.run s c ++ [(s, c)]
  | .star a, s, c => starRun a.run s.length s c
  | .grp n a, s, c =>
    (a.run s c).map fun x => (x.1, (n, s.take (s.length - x.1.length)) :: x.2)

/-- `pattern.match(s)`: the remaining text and the captures. -/
def Re.matchAt (r : Re) (s : Text) : Option (Text × Caps) := (r.run s []).head?

/-- `pattern.search(s)`: the first position at which the pattern matches. -/
def Re.search (r : Re) : Text → Option (Text × Caps)
  | [] => r.matchAt []
  | x :: s => match r.matchAt (x :: s) with
    | some m => some m
    | none => r.search s

/-- `pattern.findall(s)` for a pattern without empty matches: captures of the successive
non-overlapping matches. -/
def Re.findall (r : Re) : Nat → Text → List Caps
  | 0, _ => []
  | k + 1, s => match r.search s with
    | some (s', c) => if s'.length < s.length then c :: r.findall k s' else []
    | none => []

/-- `\s`, `str.isspace` on ASCII -/
def isSpace (c : Char) : Bool :=
  c == ' ' || c == '\t' || c == '\n' || c == '\r' || c == '\x0b' || c == '\x0c' ||
    c == '\x1c' || c == '\x1d' || c == '\x1e' || c == '\x1f'

/-- `\d` on ASCII -/
def isDigit (c : Char) : Bool := c.isDigit

/-- `\w` on ASCII -/
def isWord (c : Char) : Bool := c.isAlphanum || c == '_'

namespace Re

/-- one given character -/
def ch (x : Char) : Re := .cls (· == x)

/-- a literal text -/
def lit : Text → Re
  | [] => .eps
  | x :: s => .seq (ch x) (lit s)

/-- `r+` -/
def plus (r : Re) : Re := .seq r (.star r)

/-- a sequence of patterns -/
def cat : List Re → Re
  | [] => .eps
  | [r] => r
  | r :: rs => .seq r (cat rs)

/-- `\s*`, `\s+`, `\w+`, `\d+` -/
def sp : Re := .star (.cls isSpace)
def sp1 : Re := plus (.cls isSpace)
def word : Re := plus (.cls isWord)
def num : Re := plus (.cls isDigit)

end Re

/-- `s.split(sep)` for a one-character separator -/
def splitChar (sep : Char) : Text → List Text
  | [] => [[]]
  | x :: s =>
    if x = sep then [] :: splitChar sep s
    else match splitChar sep s with
      | [] => [[x]]
      | w :: ws => (x :: w) :: ws

/-- `s.strip(chars)` -/
def stripWith (p : Char → Bool) (s : Text) : Text :=
  ((s.dropWhile p).reverse.dropWhile p).reverse

/-- `s.strip()` -/
def strip (s : Text) : Text := stripWith isSpace s

/-- `str(n)` for a natural number -/
def showNat (n : Nat) : Text := Nat.toDigits 10 n

/-- `str(n)` for an integer -/
def showInt : Int → Text
  | .ofNat n => showNat n
  | .negSucc n => '-' :: showNat (n + 1)

/-- `", ".join(xs)` -/
def joinComma : List Text → Text
  | [] => []
  | [x] => x
  | x :: xs => x ++ ',' :: ' ' :: joinComma xs

/-- `sub in s` -/
def hasSub (sub : Text) : Text → Bool
  | [] => sub.isEmpty
  | x :: s => sub.isPrefixOf (x :: s) || hasSub sub s

end Qudits.Qasm
