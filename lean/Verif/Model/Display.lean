/-
Model of `Display` of `f64` (core), with which phlite_rips/src/main.rs:75 and 85 print numbers. Its source is not in /repo; it is modelled from the published source
of core::fmt::float and core::num::flt2dec: `to_shortest_str` with the digits of `strategy::dragon::format_shortest` (Grisu, which is tried first, has the same results).
The sign of zero is not modelled.
-/
import Verif.Model.Decimal

namespace Phlite

/-- The decimal number `c * 10^e` is in the interval of numbers that are rounded to `n * 2^-1074`. (In core: between `mant - minus` and `mant + plus`, inclusive if the
mantissa is even.) -/
def readsAs (n c : ℕ) (e : ℤ) : Bool := decide (decimalF64 false c e = F64Value.fin (n : ℤ))

/-- The loop of `format_shortest` (dragon) for the number `n * 2^-1074`, which is `m * 10^-1074`: `down` and `up` are the conditions that the digits so far, or these digits with
one added to the last one, are in the interval. The loop ends as soon as one of them holds; if both hold the nearer number is chosen, the greater one on a tie. At the
argument `k` the digits so far are those of `m / 10^k`. The result `(c, e)` stands for `c * 10^e`. -/
def shortestFrom (n m : ℕ) : ℕ → ℕ × ℤ
  | 0 => (m, -1074)
  | k + 1 =>
    let p := 10 ^ (k + 1)
    let lo := m / p
    let down := readsAs n lo ((k + 1 : ℕ) - 1074)
    let up := readsAs n (lo + 1) ((k + 1 : ℕ) - 1074)
    if up && (!down || decide (p ≤ 2 * (m % p))) then (lo + 1, (k + 1 : ℕ) - 1074)
    else if down then (lo, (k + 1 : ℕ) - 1074)
    else shortestFrom n m k

/-- The number of decimal digits of `m`, if it is at most `f`. -/
def numDigits : ℕ → ℕ → ℕ
  | 0, _ => 0
  | f + 1, m => if m = 0 then 0 else numDigits f (m / 10) + 1

/-- The shortest digits; the loop begins without any digit. -/
def shortest (n : ℕ) : ℕ × ℤ :=
  let m := n * 5 ^ 1074
  shortestFrom n m (numDigits (Nat.log2 m + 1) m)

/-- `n` zeros. -/
def zeros (n : ℕ) : String := String.ofList (List.replicate n '0')

/-- `digits_to_dec_str` (core::num::flt2dec) with `frac_digits` 0: the number `c * 10^e` in positional notation. -/
def positional (c : ℕ) (e : ℤ) : String :=
  let ds := (toString c).toList
  if 0 ≤ e then toString c ++ zeros e.toNat
  else if ds.length ≤ (-e).toNat then "0." ++ zeros ((-e).toNat - ds.length) ++ toString c
  else String.ofList (ds.take (ds.length - (-e).toNat)) ++ "." ++ String.ofList (ds.drop (ds.length - (-e).toNat))

/-- The text of a finite number that is not 0. -/
def displayFinite (n : ℕ) : String := positional (shortest n).1 (shortest n).2

/-- `Display` of `f64` and `NotNan<f64>`: `float_to_decimal_common_shortest` (core::fmt::float). -/
def displayF64 (x : NotNan) : String :=
  match x.1 with
  | none => "-inf"
  | some none => "inf"
  | some (some z) => if z = 0 then "0" else if z < 0 then "-" ++ displayFinite z.natAbs else displayFinite z.natAbs

end Phlite
