/-
Specification: decimal numbers, rounding to `f64`, csv text, and the text of a report.
-/
import Verif.Spec.Rips
import Mathlib.Data.Nat.Choose.Basic
import Mathlib.Data.Rat.Defs
import Mathlib.Algebra.Order.Group.Unbundled.Abs
import Mathlib.Algebra.Order.Ring.Rat
import Verif.Spec.RipsProgram
import Verif.Model.RipsText

namespace Phlite

/-! ### Decimal numbers -/

/-- The text `cs` consists of the decimal digits `ds`. -/
def IsDigits (cs : List Char) (ds : List ℕ) : Prop := (∀ d ∈ ds, d < 10) ∧ cs = ds.map Nat.digitChar

/-- The text `cs` is an optional sign, `σ` is 1 or -1. -/
def IsSign (cs : List Char) (σ : ℤ) : Prop := (cs = [] ∧ σ = 1) ∨ (cs = ['+'] ∧ σ = 1) ∨ (cs = ['-'] ∧ σ = -1)

/-- The text `cs` is an optional exponent: nothing, for 0, or `e` or `E`, an optional sign and at least one digit. -/
def IsExponent (cs : List Char) (k : ℤ) : Prop :=
  (cs = [] ∧ k = 0) ∨ ∃ c sign τ digits ds, (c = 'e' ∨ c = 'E') ∧ IsSign sign τ ∧ IsDigits digits ds ∧ ds ≠ [] ∧ cs = c :: (sign ++ digits) ∧ k = τ * ((Nat.ofDigits 10 ds.reverse : ℕ) : ℤ)

/-- The text `s` is a decimal number of value `x`: an optional sign, digits, an optional point and more digits, an optional exponent; with at least one digit before or after the point. -/
def IsDecimal (s : String) (x : ℚ) : Prop :=
  ∃ sign σ before is point after fs exponent k, IsSign sign σ ∧ IsDigits before is ∧ IsDigits after fs ∧ IsExponent exponent k ∧ (is ≠ [] ∨ fs ≠ []) ∧
    (point = ['.'] ∨ (point = [] ∧ fs = [])) ∧ s.toList = sign ++ before ++ point ++ after ++ exponent ∧
    x = σ * ((Nat.ofDigits 10 (is ++ fs).reverse : ℕ) : ℚ) * (10 : ℚ) ^ (k - fs.length)

/-- The text `s` is the word `w`, in upper or lower case, with an optional sign. -/
def IsWord (w : String) (s : String) (σ : ℤ) : Prop := ∃ sign cs, IsSign sign σ ∧ cs.map Char.toLower = w.toList ∧ s.toList = sign ++ cs

/-- The distance from `x` to `y`. -/
def distQ (x y : ℚ) : ℚ := |x - y|

/-- `b` is `x` rounded to `f64`: a finite number to which no other one is nearer, and if another one is equally near, then `b` is an even multiple of the gap between the two;
infinite if `x` is at least 2^1024 - 2^970 (half a step above the greatest finite number) in absolute value. -/
def IsRounded (x : ℚ) (b : NotNan) : Prop :=
  (∃ y, b.HasValue y ∧ (x < 2 ^ 1024 - 2 ^ 970 ∧ -(2 ^ 1024 - 2 ^ 970) < x) ∧
    ∀ b' y', NotNan.HasValue b' y' → distQ x y ≤ distQ x y' ∧ (distQ x y = distQ x y' → y' ≠ y → ∃ k : ℤ, y = 2 * k * (y - y'))) ∨
  (b.1 = ((⊤ : WithTop ℤ) : WithBot (WithTop ℤ)) ∧ 2 ^ 1024 - 2 ^ 970 ≤ x) ∨ (b.1 = ⊥ ∧ x ≤ -(2 ^ 1024 - 2 ^ 970))

/-- The text `s` is a number, finite or infinite. -/
def IsNumberText (s : String) : Prop := (∃ x, IsDecimal s x) ∨ ∃ σ, IsWord "inf" s σ ∨ IsWord "infinity" s σ

/-! ### Csv text -/

/-- The text `t` stands for the field `v`: as it is, if it contains no comma, quote or end of line; or in quotes, with quotes inside doubled. -/
def IsCsvField (t : List Char) (v : String) : Prop :=
  (t = v.toList ∧ ∀ c ∈ t, c ≠ ',' ∧ c ≠ '"' ∧ c ≠ '\n' ∧ c ≠ '\r') ∨
  t = '"' :: (v.toList.flatMap (fun c => if c = '"' then ['"', '"'] else [c]) ++ ['"'])

/-- The text `t` stands for the fields `vs`, separated by commas. -/
inductive IsCsvRow : List Char → List String → Prop
  | last {t v} : IsCsvField t v → IsCsvRow t [v]
  | cons {t v ts vs} : IsCsvField t v → IsCsvRow ts vs → IsCsvRow (t ++ ',' :: ts) (v :: vs)

/-- An end of line. -/
def IsLineEnd (t : List Char) : Prop := t = ['\n'] ∨ t = ['\r', '\n'] ∨ t = ['\r']

/-- The text `t` stands for the rows: lines that are not empty, each with an end of line, which the last one need not have, and blank lines in between. -/
inductive IsCsv : List Char → List (List String) → Prop
  | nil : IsCsv [] []
  | blank {e t rows} : IsLineEnd e → IsCsv t rows → IsCsv (e ++ t) rows
  | last {t row} : IsCsvRow t row → t ≠ [] → IsCsv t [row]
  | cons {t row e ts rows} : IsCsvRow t row → t ≠ [] → IsLineEnd e → IsCsv ts rows → IsCsv (t ++ e ++ ts) (row :: rows)

/-! ### The text of a report -/

/-- Everything that the program prints for the report `r`. -/
def RipsReport.text (fmt : NotNan → String) (r : RipsReport NotNan) : String :=
  "Basis sizes:\n" ++ String.join (r.sizes.map fun x => "Dimension " ++ toString x.1 ++ ": " ++ toString x.2 ++ "\n") ++
  "\nEssential:\n" ++ String.join (r.essential.map fun x => " dim=" ++ toString x.1 ++ ", birth=Reverse(RipsIndex(" ++ toString (OrderDual.ofDual x.2.1) ++ ")), f=(" ++ fmt x.2.2 ++ ", ∞)\n") ++
  "\nPairings:\n" ++ String.join (r.pairings.map fun x => " dim=" ++ toString x.1 ++ ", pair=(Reverse(RipsIndex(" ++ toString (OrderDual.ofDual x.2.1.1) ++ ")), Reverse(RipsIndex(" ++
    toString (OrderDual.ofDual x.2.1.2) ++ "))), f=(" ++ fmt x.2.2.1 ++ ", " ++ fmt x.2.2.2 ++ ")\n")

/-- The first section of the text: the numbers of simplices with `n` points, up to dimension `k`. -/
def sizesText (n k : ℕ) : String :=
  "Basis sizes:\n" ++ String.join ((List.range (k + 1)).map fun j => "Dimension " ++ toString j ++ ": " ++ toString (n.choose (j + 1)) ++ "\n")

/-- The table and the argument can be read, with dimension `k`: all rows have the same length, there are not more rows than columns, every entry is a number, the dimension is 1 or the
numeral given as argument, and not 0 unless there is at most one row; a vector with `k + 1` elements of 24 bytes can be allocated. -/
def IsReadable (rows : List (List String)) (args : List String) (k : ℕ) : Prop :=
  (∀ row ∈ rows, row.length = (rows.headD []).length ∧ rows.length ≤ row.length ∧ ∀ s ∈ row, IsNumberText s) ∧
  ((args[1]? = none ∧ k = 1) ∨ ∃ arg, args[1]? = some arg ∧ IsNumeral arg k) ∧ 24 * (k + 1) < 2 ^ 63 ∧ (1 ≤ k ∨ rows.length ≤ 1)

/-- The indices of all simplices with at most `m` of `n` points are below `2^64`. -/
def IndicesFit (n m : ℕ) : Prop := ∀ σ, IsSimplex n σ → σ.card ≤ m → simplexIndex n σ < 2 ^ 64

/-- `Display` of `f64`, which the program prints numbers with, is a shortest decimal number that `parse` reads back as the same number; here only: that it is read back as the same number. -/
def ReadsBack (fmt : NotNan → String) : Prop := ∀ x, parseF64 (fmt x) = some (some x)

end Phlite
