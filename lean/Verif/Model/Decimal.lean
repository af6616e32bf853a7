/-
Model of `<f64 as FromStr>::from_str` (core), with which phlite_rips/src/main.rs:28 reads the entries of the distance matrix. Its source is not in /repo; it is modelled from its documentation
(grammar; the result is the nearest `f64`, ties to even).
-/
import Verif.Model.RipsProgram

namespace Phlite

/-- The rational number `num / den`, a multiple of 2^-1074, rounded to a number that exists in binary64 if there is no bound on the exponent: to the nearest, ties to even. -/
def roundRat (num den : ℕ) : ℕ :=
  let q0 := num / den
  let e := if q0 < 2 ^ 53 then 0 else Nat.log2 q0 - 52
  let q := num / (den * 2 ^ e)
  let r := num % (den * 2 ^ e)
  (if den * 2 ^ e < 2 * r ∨ (2 * r = den * 2 ^ e ∧ q % 2 = 1) then q + 1 else q) * 2 ^ e

/-- The `f64` number of magnitude `n * 2^-1074`; infinite from 2^1024 on. -/
def signedF64 (neg : Bool) (n : ℕ) : F64Value :=
  if n < overflowF64 then F64Value.fin (if neg then -(n : ℤ) else n) else if neg then ⊥ else ((⊤ : WithTop ℤ) : WithBot (WithTop ℤ))

/-- The value of decimal digits. -/
def digitsValue (cs : List Char) : ℕ := cs.foldl (fun n c => 10 * n + (c.toNat - '0'.toNat)) 0

/-- One or more decimal digits. -/
def parseDigitsOnly (cs : List Char) : Option ℕ := if cs = [] ∨ ¬ (cs.all fun c => c.isDigit) then none else some (digitsValue cs)

/-- The exponent after `e`. (The code in core stops reading digits at 65536 and larger; with less than 65000 digits in front, the result is 0 or infinite in any case.) -/
def parseExponent : List Char → Option ℤ
  | '-' :: cs => (parseDigitsOnly cs).map fun n : ℕ => -(n : ℤ)
  | '+' :: cs => (parseDigitsOnly cs).map fun n : ℕ => (n : ℤ)
  | cs => (parseDigitsOnly cs).map fun n : ℕ => (n : ℤ)

/-- The fraction after the point, if there is a point, and what follows. -/
def parseFraction : List Char → List Char × List Char
  | '.' :: cs => (cs.takeWhile fun c => c.isDigit, cs.dropWhile fun c => c.isDigit)
  | cs => ([], cs)

/-- A number without a sign: `some (m, e)` stands for `m * 10^e`. -/
def parseNumber (cs : List Char) : Option (ℕ × ℤ) :=
  let ip := cs.takeWhile fun c => c.isDigit
  let fr := parseFraction (cs.dropWhile fun c => c.isDigit)
  if ip = [] ∧ fr.1 = [] then none
  else
    match fr.2 with
    | [] => some (digitsValue (ip ++ fr.1), -(fr.1.length : ℤ))
    | c :: rest => if c = 'e' ∨ c = 'E' then (parseExponent rest).map fun k => (digitsValue (ip ++ fr.1), k - fr.1.length) else none

/-- `m * 10^e`, rounded to `f64`. -/
def decimalF64 (neg : Bool) (m : ℕ) (e : ℤ) : F64Value := signedF64 neg (roundRat (m * 10 ^ e.toNat * 2 ^ 1074) (10 ^ (-e).toNat))

/-- The optional sign; `true` is minus. -/
def parseSign : List Char → Bool × List Char
  | '-' :: cs => (true, cs)
  | '+' :: cs => (false, cs)
  | cs => (false, cs)

/-- `<f64 as FromStr>::from_str` (core): `none` is an error, `some none` is NaN. A sign, then a decimal number (digits with or without a point, and with or without an
exponent) or, in upper or lower case, `inf`, `infinity` or `nan`. A decimal number is rounded to the nearest `f64`, ties to even. -/
def parseF64Value (s : String) : Option (Option F64Value) :=
  let sg := parseSign s.toList
  match parseNumber sg.2 with
  | some (m, e) => some (some (decimalF64 sg.1 m e))
  | none =>
    let low := sg.2.map Char.toLower
    if low = "nan".toList then some none
    else if low = "inf".toList ∨ low = "infinity".toList then some (some (if sg.1 then ⊥ else ((⊤ : WithTop ℤ) : WithBot (WithTop ℤ))))
    else none

end Phlite
