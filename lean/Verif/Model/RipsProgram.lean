/-
Model of the command line program phlite_rips/src/main.rs from the records of its csv input and its arguments on, with `f64` numbers. The splitting of the
input into records (the csv crate) and the conversion of text to `f64` are parameters here; Model/RipsText supplies them, and the text of the printed lines.
-/
import Mathlib.Order.WithBot
import Mathlib.Data.Int.Init
import Verif.Model.RipsMain
import Verif.Model.Rips64
import Verif.Model.Float64

namespace Phlite

/-! ### `NotNan<f64>` -/

/-- `f64` without NaN: a finite number is given as a multiple of 2^-1074, the least positive number; `⊤` and `⊥` are `∞` and `-∞`. The zeros are identified (they are
equal for `==` and `Ord`, and no sum or difference here tells them apart, except for the sign of zero). -/
abbrev F64Value : Type := WithBot (WithTop ℤ)

/-- The finite value `z`. -/
abbrev F64Value.fin (z : ℤ) : F64Value := ((z : WithTop ℤ) : WithBot (WithTop ℤ))

/-- The values that exist in binary64. -/
def IsF64 (v : F64Value) : Prop := ∀ z : ℤ, v = F64Value.fin z → Has53Bits z.natAbs ∧ z.natAbs < overflowF64

/-- `NotNan<f64>` (ordered_float), ordered by value. -/
def NotNan : Type := { v : F64Value // IsF64 v }

/-- Rounding to binary64 (to nearest, ties to even): the magnitude is rounded, the sign kept. -/
def roundInt (z : ℤ) : F64Value :=
  match roundF64 z.natAbs with
  | some m => F64Value.fin (if z < 0 then -(m : ℤ) else m)
  | none => if z < 0 then ⊥ else ((⊤ : WithTop ℤ) : WithBot (WithTop ℤ))

/-- `a - b` on `f64`; `none` is NaN. -/
def subF64 : F64Value → F64Value → Option F64Value
  | some (some x), some (some y) => some (roundInt (x - y))
  | some none, some none => none
  | none, none => none
  | some none, _ => some (some none)
  | none, _ => some none
  | some (some _), some none => some none
  | some (some _), none => some (some none)

/-- The `f64` literal `0.01`: 5764607523034235 * 2^-59. -/
def hundredth : F64Value := F64Value.fin (5764607523034235 * 2 ^ 1015)

/-- `a > b` on `f64` for a number `b`: false if `a` is NaN. -/
def gtF64 (a : Option F64Value) (b : F64Value) : Bool :=
  match a with
  | none => false
  | some x => decide (b < x)

/-- `let difference = death_f - birth_f; if difference > 0.01`, phlite_rips/src/main.rs:83-84. -/
def longF64 (birth death : NotNan) : Bool := gtF64 (subF64 death.1 birth.1) hundredth

instance : LinearOrder NotNan := inferInstanceAs (LinearOrder { v : F64Value // IsF64 v })

instance : Zero NotNan := ⟨⟨F64Value.fin 0, fun z h => by
  have : (0 : ℤ) = z := WithTop.coe_injective (WithBot.coe_injective h)
  subst this
  exact ⟨⟨0, 0, by decide, by decide⟩, by unfold overflowF64; exact Nat.pow_pos (by decide)⟩⟩⟩

/-! ### Input -/

/-- `<usize as FromStr>::from_str` (core): an optional `+`, then one or more decimal digits; the value must be less than 2^64. -/
def parseUsize (s : String) : Option Nat :=
  let cs := match s.toList with
    | '+' :: cs => cs
    | cs => cs
  if cs = [] ∨ ¬ (cs.all fun c => c.isDigit) then none
  else
    let n := cs.foldl (fun n c => 10 * n + (c.toNat - '0'.toNat)) 0
    if n < 2 ^ 64 then some n else none

/-- `NotNan::new(entry.parse::<f64>().unwrap()).unwrap()`, phlite_rips/src/main.rs:28: panics if the entry is not a number (`parse` returns `none`) or is NaN
(`some none`). -/
def parseEntry {F : Type} (parse : String → Option (Option F)) (entry : String) : Option F := (parse entry).bind fun x => x

/-- `rdr.records().map(..).collect()`, phlite_rips/src/main.rs:20-31: the records are given as the csv reader yields them, an error (`none`) panics. -/
def readMatrix {F : Type} (parse : String → Option (Option F)) (records : List (Option (List String))) : Option (List (List F)) :=
  mapOpt (fun row => row.bind fun row => mapOpt (parseEntry parse) row) records

/-- `std::env::args().nth(1).map(|arg| arg.parse().expect(..))`, phlite_rips/src/main.rs:34-39: panics if there is an argument that is not a number. -/
def readArg (args : List String) : Option (Option Nat) :=
  match args[1]? with
  | none => some none
  | some arg => (parseUsize arg).map some

/-- `main`, phlite_rips/src/main.rs:16-88. -/
def ripsProgram [StdHeap] (CF : Type) [NonZeroCoeff CF] (parse : String → Option (Option NotNan)) (enumE : Finset RipsIndexᵒᵈ → List RipsIndexᵒᵈ)
    (enumP : Finset (RipsIndexᵒᵈ × RipsIndexᵒᵈ) → List (RipsIndexᵒᵈ × RipsIndexᵒᵈ)) (records : List (Option (List String))) (args : List String) (fuel : Nat) :
    Option (RipsReport NotNan) :=
  (readMatrix parse records).bind fun distances =>
  (readArg args).bind fun arg =>
  ripsMain CF longF64 enumE enumP distances arg fuel

/-- `vec![SingleDimRipsBasisWithFilt(vec![]); max_dim + 1]`, phlite_rips/src/lib.rs:184, on a 64-bit machine: panics if `max_dim + 1` overflows (without overflow checks the
vector is empty and the program panics at the next use of it) or if the vector, with 24 bytes for an element, needs more than `isize::MAX` bytes. Running out of memory
below that is not modelled. -/
def allocBases (max_dim : Nat) : Option Unit := if 24 * (max_dim + 1) < 2 ^ 63 then some () else none

/-- `main`, phlite_rips/src/main.rs:16-88, on a 64-bit machine, with `fi` for `RipsIndex::from_indices`: `fromIndices64` in a debug build, `fromIndicesWrapping` in a
release build. -/
def ripsProgramW [StdHeap] (fi : FromIndices) (CF : Type) [NonZeroCoeff CF] (parse : String → Option (Option NotNan)) (enumE : Finset RipsIndexᵒᵈ → List RipsIndexᵒᵈ)
    (enumP : Finset (RipsIndexᵒᵈ × RipsIndexᵒᵈ) → List (RipsIndexᵒᵈ × RipsIndexᵒᵈ)) (records : List (Option (List String))) (args : List String) (fuel : Nat) :
    Option (RipsReport NotNan) :=
  (readMatrix parse records).bind fun distances =>
  (readArg args).bind fun arg =>
  (allocBases (ripsMaxDim arg)).bind fun _ =>
  ripsMainW fi CF longF64 enumE enumP distances arg fuel

end Phlite
