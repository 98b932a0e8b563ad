/-
Model of the key type and its notations: src/analysis/result.rs.
A Rust `&str` is a list of Unicode scalar values; its `len()` is the UTF-8 byte length.
-/
import Verif.Common

namespace Verif.Keys
open Verif

/-- result.rs lines 7-12 (`Key`) -/
inductive Key where
  | major (i : ℕ)
  | minor (i : ℕ)
deriving DecidableEq, Repr

/-- result.rs lines 32-34 -/
def noteNames : List (List Char) :=
  ["C", "C#", "D", "D#", "E", "F", "F#", "G", "G#", "A", "A#", "B"].map String.toList

/-- result.rs lines 31-39 (`name`); the index `i % 12` is always in range -/
def Key.name : Key → List Char
  | .major i => noteNames.getD (i % 12) []
  | .minor i => noteNames.getD (i % 12) [] ++ ['m']

/-- result.rs lines 63 and 126 -/
def circleMajor : List ℕ := [0, 7, 2, 9, 4, 11, 6, 1, 8, 3, 10, 5]

/-- result.rs lines 79 and 127 -/
def circleMinor : List ℕ := [9, 4, 11, 6, 1, 8, 3, 10, 5, 0, 7, 2]

/-- `iter().position(|&x| x == k).unwrap_or(0)` -/
def position (l : List ℕ) (k : ℕ) : ℕ := (l.findIdx? (· == k)).getD 0

/-- result.rs lines 60-87 (`numerical`) -/
def Key.numerical : Key → List Char
  | .major i => Nat.toDigits 10 (position circleMajor (i % 12) + 1) ++ ['A']
  | .minor i => Nat.toDigits 10 (position circleMinor (i % 12) + 1) ++ ['B']

/-- `char::to_digit(10)` on one character -/
def toDigit (c : Char) : Option ℕ := if '0' ≤ c ∧ c ≤ '9' then some (c.toNat - 48) else none

/-- the digit loop of `u32::from_str`, with overflow check -/
def parseDigits : ℕ → List Char → Option ℕ
  | acc, [] => some acc
  | acc, c :: cs =>
    match toDigit c with
    | none => none
    | some d => if 2 ^ 32 ≤ acc * 10 + d then none else parseDigits (acc * 10 + d) cs

/-- `str::parse::<u32>().ok()`: an optional `+`, then at least one digit -/
def parseU32 : List Char → Option ℕ
  | [] => none
  | '+' :: cs => if cs = [] then none else parseDigits 0 cs
  | cs => parseDigits 0 cs

/-- UTF-8 byte length -/
def byteLen (s : List Char) : ℕ := (s.map Char.utf8Size).sum

/-- result.rs lines 113-140 (`from_numerical`).  `split_at(len - 1)` panics unless byte `len - 1` is a
character boundary, i.e. unless the last character takes one byte. -/
def fromNumerical (s : List Char) : R (Option Key) :=
  if byteLen s < 2 then .ok none
  else
    match s.getLast? with
    | none => .ok none
    | some c =>
      if c.utf8Size ≠ 1 then R.panic
      else
        match parseU32 s.dropLast with
        | none => .ok none
        | some num =>
          if ¬ (1 ≤ num ∧ num ≤ 12) then .ok none
          else if c = 'A' then (idx circleMajor (num - 1)).map (fun k => some (.major k))
          else if c = 'B' then (idx circleMinor (num - 1)).map (fun k => some (.minor k))
          else .ok none

end Verif.Keys
