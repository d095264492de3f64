import Verif.Base.CInt
import Mathlib.Data.Rat.Floor
import Mathlib.Data.Int.Log
/-!
# `OSHMPIU_str_to_size`

`/repo/src/include/oshmpi_util.h` L145-167. Used for SHMEM_SYMMETRIC_SIZE (setup_impl.c L604-609).
-/
namespace Verif.Env

/-- value of a decimal digit -/
def digitVal (c : Char) : Option Nat :=
  if '0' ≤ c ∧ c ≤ '9' then some (c.toNat - '0'.toNat) else none

/-- reads decimal digits: value (continuing from `acc`), number of digits (continuing from `cnt`), rest -/
def scanDigits : Nat → Nat → List Char → Nat × Nat × List Char
  | acc, cnt, [] => (acc, cnt, [])
  | acc, cnt, c :: cs => match digitVal c with
    | some d => scanDigits (10 * acc + d) (cnt + 1) cs
    | none => (acc, cnt, c :: cs)

/-- value of a hexadecimal digit -/
def hexVal (c : Char) : Option Nat :=
  if '0' ≤ c ∧ c ≤ '9' then some (c.toNat - '0'.toNat)
  else if 'a' ≤ c ∧ c ≤ 'f' then some (c.toNat - 'a'.toNat + 10)
  else if 'A' ≤ c ∧ c ≤ 'F' then some (c.toNat - 'A'.toNat + 10)
  else none

/-- reads hexadecimal digits, as `scanDigits` -/
def scanHex : Nat → Nat → List Char → Nat × Nat × List Char
  | acc, cnt, [] => (acc, cnt, [])
  | acc, cnt, c :: cs => match hexVal c with
    | some d => scanHex (16 * acc + d) (cnt + 1) cs
    | none => (acc, cnt, c :: cs)

/-- `isspace` in the "C" locale -/
def isBlank (c : Char) : Bool := c = ' ' || c = '\t' || c = '\n' || c = '\x0b' || c = '\x0c' || c = '\r'

/-- an optional sign: negative?, rest -/
def scanSign : List Char → Bool × List Char
  | [] => (false, [])
  | c :: cs => if c = '-' then (true, cs) else if c = '+' then (false, cs) else (false, c :: cs)

/-- an exponent (letter `lo` or `up`, optional sign, digits), if there is a complete one, and the rest -/
def scanExp (lo up : Char) : List Char → Int × List Char
  | [] => (0, [])
  | c :: cs =>
    if c = lo ∨ c = up then
      let (neg, t) := scanSign cs
      let (n, k, rest) := scanDigits 0 0 t
      if k = 0 then (0, c :: cs) else (if neg then -(n : Int) else n, rest)
    else (0, c :: cs)

/-- the text after a point -/
def afterPoint : List Char → Option (List Char)
  | [] => none
  | c :: t => if c = '.' then some t else none

/-- the text after `0x` -/
def afterHex : List Char → Option (List Char)
  | [] => none
  | [_] => none
  | c :: x :: t => if c = '0' ∧ (x = 'x' ∨ x = 'X') then some t else none

/-- decimal mantissa: digits, optionally with a point; `none`: no digit -/
def scanDec (s : List Char) : Option (Rat × List Char) :=
  let (n, k, rest) := scanDigits 0 0 s
  match afterPoint rest with
  | some t =>
    let (m, l, u) := scanDigits 0 0 t
    if k = 0 ∧ l = 0 then none else some ((n : Rat) + (m : Rat) / 10 ^ l, u)
  | none => if k = 0 then none else some ((n : Rat), rest)

/-- hexadecimal mantissa after `0x`; `none`: no digit -/
def scanHexM (s : List Char) : Option (Rat × List Char) :=
  let (n, k, rest) := scanHex 0 0 s
  match afterPoint rest with
  | some t =>
    let (m, l, u) := scanHex 0 0 t
    if k = 0 ∧ l = 0 then none else some ((n : Rat) + (m : Rat) / 16 ^ l, u)
  | none => if k = 0 then none else some ((n : Rat), rest)

/-- after the sign: hexadecimal number with optional binary exponent, or decimal number with optional exponent -/
def scanNum (s : List Char) : Option (Rat × List Char) :=
  match (afterHex s).bind scanHexM with
  | some (q, t) => let (e, u) := scanExp 'p' 'P' t; some (q * 2 ^ e, u)
  | none => match scanDec s with
    | some (q, t) => let (e, u) := scanExp 'e' 'E' t; some (q * 10 ^ e, u)
    | none => none

/-- "inf" or "nan" in any case -/
def isSpecial (s : List Char) : Bool :=
  let t := (s.take 3).map Char.toLower
  t = ['i', 'n', 'f'] || t = ['n', 'a', 'n']

/-- the number before rounding -/
inductive Num where
  | fin (neg : Bool) (q : Rat)
  /-- infinity or not-a-number -/
  | special
deriving DecidableEq

/-- What `strtof` reads (C11 7.22.1.3, "C" locale) and what `*e` points to. After infinity and not-a-number the rest does not matter to
the caller and is left empty. -/
def strtofScan (s : List Char) : Num × List Char :=
  let (neg, t) := scanSign (s.dropWhile isBlank)
  if isSpecial t then (.special, [])
  else match scanNum t with
    | some (q, u) => (.fin neg q, u)
    | none => (.fin false 0, s)

/-- nearest integer, ties to even -/
def rne (q : Rat) : Int :=
  let f := ⌊q⌋
  if q - f < 1 / 2 then f else if 1 / 2 < q - f then f + 1 else if f % 2 = 0 then f else f + 1

/-- IEEE 754 binary32 rounding to nearest of a non-negative number (what `strtof` does); `none`: overflow to infinity -/
def fl32 (q : Rat) : Option Rat :=
  if q = 0 then some 0
  else
    let e := max (Int.log 2 q) (-126)
    let s := e - 23
    let r : Rat := rne (q / 2 ^ s) * 2 ^ s
    if r < 2 ^ (128 : Int) then some r else none

/-- conversion of a double to `uint64_t`: truncation, undefined out of range (C11 6.3.1.4) -/
def toU64f (q : Rat) : Res Nat := if -1 < q ∧ ⌊q⌋.toNat < 2 ^ 64 then .ok ⌊q⌋.toNat else .ub

/-- the factor of the suffix character, oshmpi_util.h L154-161. The multiplication of a `float` value by a power of two is
exact in `double`. -/
def unitFactor (c : Char) : Nat :=
  if c = 'K' ∨ c = 'k' then 1024
  else if c = 'M' ∨ c = 'm' then 1024 ^ 2
  else if c = 'G' ∨ c = 'g' then 1024 ^ 3
  else if c = 'T' ∨ c = 't' then 1024 ^ 4
  else 1

/-- `OSHMPIU_str_to_size`, oshmpi_util.h L145-167; the conversion of infinity and not-a-number is undefined -/
def strToSize (s : List Char) : Res Nat := match strtofScan s with
  | (.special, _) => .ub
  | (.fin neg q, e) => match fl32 q with
    | none => .ub
    | some v =>
      let w := if neg then -v else v
      match e with
      | [] => toU64f w
      | c :: _ => toU64f (⌈w * unitFactor c⌉ : Int)

end Verif.Env
