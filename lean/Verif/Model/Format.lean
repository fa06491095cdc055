import Mathlib.Algebra.Order.Floor.Ring
import Mathlib.Data.Rat.Floor
import Verif.Model.SortFactors

/-!
# Formatting and parsing of numbers

The verbs of Go's `fmt` used by the library and the part of `strconv.ParseFloat` that reads what they
write. Floating point numbers are rationals; infinities, NaN, exponents, hexadecimal notation and
underscores are not modelled.
-/

namespace Gopf.Pf

/-- `%d` (`strconv.Itoa`). Used at pf/fileIO.go:31, 201. -/
def fmtInt (i : Int) : Str :=
  if i < 0 then '-' :: Nat.toDigits 10 i.natAbs else Nat.toDigits 10 i.natAbs

/-- Rounding to an integer, halves to the even neighbour (what `strconv` does with the last digit). Part of
the conversion at pf/fileIO.go:204. -/
def roundHalfEven (q : ℚ) : Int :=
  let n := ⌊q⌋
  let f := q - n
  if f < 1 / 2 then n else if 1 / 2 < f then n + 1 else if n % 2 = 0 then n else n + 1

/-- `%f`: six digits after the decimal point. Used at pf/fileIO.go:204. -/
def fmtF (x : ℚ) : Str :=
  let m := (roundHalfEven (|x| * 10 ^ 6)).toNat
  let text := Nat.toDigits 10 (m / 10 ^ 6) ++ '.' ::
    (Nat.toDigits 10 (m % 10 ^ 6)).leftpad 6 '0'
  if x < 0 then '-' :: text else text

/-- Unsigned part of `strconv.ParseFloat`. Used at pf/util.go:68-78 and pf/fileIO.go:146-149. -/
def parseUnsigned (t : Str) : Option ℚ :=
  let a := t.takeWhile Char.isDigit
  match t.dropWhile Char.isDigit with
  | [] => if a = [] then none else some (Nat.ofDigitChars 10 a 0 : ℕ)
  | '.' :: b =>
    if b.all Char.isDigit ∧ ¬ (a = [] ∧ b = []) then
      some ((Nat.ofDigitChars 10 a 0 : ℕ) + (Nat.ofDigitChars 10 b 0 : ℕ) / (10 ^ b.length : ℚ))
    else none
  | _ => none

/-- `strconv.ParseFloat` on `[+-]digits[.digits]`; `none` is a syntax error. Used at pf/util.go:68-78 and
pf/fileIO.go:146-149. -/
def parseFloat : Str → Option ℚ
  | '-' :: t => (parseUnsigned t).map fun q => -q
  | '+' :: t => parseUnsigned t
  | t => parseUnsigned t

end Gopf.Pf
