/-
Model of the command line program phlite_rips/src/main.rs from the text of its input to the text that it prints: the csv reader, the conversion of decimal text to `f64` and
the printed lines. The csv reader (crates csv 1.3.0 and csv-core 0.1.11) and `<f64 as FromStr>::from_str` (core) are third-party code whose source is not in /repo; they are modelled from their
published source and documentation. Input that is not valid UTF-8 is not modelled (the reader yields an error and the program panics).
-/
import Verif.Proofs.Decimal

namespace Phlite

/-! ### The csv reader -/

/-- The states of csv-core's automaton (`NfaState`) in which it can wait for a character. -/
inductive CsvState
  | startRecord
  | startField
  | inField
  | inQuoted
  | afterQuote
deriving DecidableEq

/-- What becomes of a character. -/
inductive CsvAction
  | copy
  | skip
  | endField
  | endRecord
deriving DecidableEq

/-- `Terminator::CRLF`, the default: `\r`, `\n` and `\r\n` end a record. (After `\r` the automaton skips one `\n`; a `\n` at the start of a record is skipped anyway.) -/
def csvTerm (c : Char) : Bool := c == '\n' || c == '\r'

/-- The transition from `InField`. -/
def csvInField (c : Char) : CsvState × CsvAction :=
  if c = ',' then (.startField, .endField) else if csvTerm c then (.startRecord, .endRecord) else (.inField, .copy)

/-- The transition from `StartField`. -/
def csvStartField (c : Char) : CsvState × CsvAction := if c = '"' then (.inQuoted, .skip) else csvInField c

/-- `transition_nfa` of csv-core with the default settings: delimiter `,`, quote `"` doubled inside quotes, no escape, no comments. Blank lines are skipped. -/
def csvStep : CsvState → Char → CsvState × CsvAction
  | .startRecord, c => if csvTerm c then (.startRecord, .skip) else csvStartField c
  | .startField, c => csvStartField c
  | .inField, c => csvInField c
  | .inQuoted, c => if c = '"' then (.afterQuote, .skip) else (.inQuoted, .copy)
  | .afterQuote, c => if c = '"' then (.inQuoted, .copy) else csvInField c

/-- The records of the rest of the input, after the characters `field` of the current field and the fields `row` of the current record. -/
def csvGo : CsvState → List Char → List String → List Char → List (List String)
  | st, field, row, [] => if st = .startRecord then [] else [row ++ [String.ofList field]]
  | st, field, row, c :: cs =>
    match csvStep st c with
    | (st', .copy) => csvGo st' (field ++ [c]) row cs
    | (st', .skip) => csvGo st' field row cs
    | (st', .endField) => csvGo st' [] (row ++ [String.ofList field]) cs
    | (st', .endRecord) => (row ++ [String.ofList field]) :: csvGo st' [] [] cs

/-- A byte order mark at the start is skipped. -/
def stripBom : List Char → List Char
  | [] => []
  | c :: cs => if c.toNat = 0xFEFF then cs else c :: cs

/-- `csv::ReaderBuilder::new().has_headers(false).from_reader(io::stdin())` and `rdr.records()`, phlite_rips/src/main.rs:20-24: a record that has not as many fields as the first
one is an error (`flexible` is false). -/
def csvRecords (text : String) : List (Option (List String)) :=
  let rows := csvGo .startRecord [] [] (stripBom text.toList)
  rows.map fun row => if row.length = (rows.headD []).length then some row else none

/-! ### Entries -/

/-- `entry.parse::<f64>()`, phlite_rips/src/main.rs:28, as a function to `NotNan`; `some none` is NaN. -/
def parseF64 (s : String) : Option (Option NotNan) :=
  match h : parseF64Value s with
  | none => none
  | some none => some none
  | some (some v) => some (some ⟨v, isF64_parse h⟩)

/-! ### Printed lines -/

/-- `{idx:?}` for a `Reverse<RipsIndex>` (both derive `Debug`). -/
def debugIndex (idx : RipsIndexᵒᵈ) : String := "Reverse(RipsIndex(" ++ toString (OrderDual.ofDual idx : ℕ) ++ "))"

/-- `println!("Dimension {dim}: {basis_size}")`, phlite_rips/src/main.rs:53. -/
def sizeLine (x : ℕ × ℕ) : String := "Dimension " ++ toString x.1 ++ ": " ++ toString x.2 ++ "\n"

/-- `println!(" dim={dim}, birth={idx:?}, f=({f_val}, ∞)")`, phlite_rips/src/main.rs:75. `fmt` is `Display` of `f64` (and of `NotNan<f64>`, which is the same). -/
def essentialLine (fmt : NotNan → String) (x : ℕ × RipsIndexᵒᵈ × NotNan) : String :=
  " dim=" ++ toString x.1 ++ ", birth=" ++ debugIndex x.2.1 ++ ", f=(" ++ fmt x.2.2 ++ ", ∞)\n"

/-- `println!(" dim={dim}, pair={idx_tup:?}, f=({birth_f}, {death_f})")`, phlite_rips/src/main.rs:85. -/
def pairingLine (fmt : NotNan → String) (x : ℕ × (RipsIndexᵒᵈ × RipsIndexᵒᵈ) × NotNan × NotNan) : String :=
  " dim=" ++ toString x.1 ++ ", pair=(" ++ debugIndex x.2.1.1 ++ ", " ++ debugIndex x.2.1.2 ++ "), f=(" ++ fmt x.2.2.1 ++ ", " ++ fmt x.2.2.2 ++ ")\n"

/-- A part of the program that prints: what it has printed, and whether it has ended without a panic. -/
abbrev Printing : Type := String × Bool

/-- One part after another; nothing is printed after a panic. -/
def Printing.andThen (a : Printing) (b : Printing) : Printing := if a.2 then (a.1 ++ b.1, b.2) else a

/-- `println!` of fixed text. -/
def Printing.line (s : String) : Printing := (s, true)

/-- A value is computed; if that panics nothing is printed. -/
def Printing.compute {α : Type} (o : Option α) (f : α → Printing) : Printing :=
  match o with
  | none => ("", false)
  | some a => f a

/-- A loop that computes a value in each round and prints it or, if there is none, nothing. -/
def Printing.loop {α β : Type} (f : α → Option (Option β)) (line : β → String) : List α → Printing
  | [] => ("", true)
  | a :: l => Printing.compute (f a) fun b => Printing.andThen (Printing.line (match b with | none => "" | some b => line b)) (Printing.loop f line l)

/-- The part of `main` after the matrix and the bases have been built, phlite_rips/src/main.rs:50-87. The three loops are those of `ripsSizes`, `ripsEssential` and
`ripsPairings`. -/
def ripsPrint [StdHeap] {CF : Type} [NonZeroCoeff CF] (fmt : NotNan → String) (enumE : Finset RipsIndexᵒᵈ → List RipsIndexᵒᵈ)
    (enumP : Finset (RipsIndexᵒᵈ × RipsIndexᵒᵈ) → List (RipsIndexᵒᵈ × RipsIndexᵒᵈ)) (n_points max_dim : Nat)
    (d : FOracle CF RipsIndex RipsIndex NotNan × SplitBasis RipsIndex) (fuel : Nat) : Printing :=
  let filt := d.1.reverse.filt
  (Printing.line "Basis sizes:\n").andThen <|
  (Printing.loop (fun dim => (d.2.reverse.inDim dim).map fun b => some (dim, b.size)) sizeLine (List.range (max_dim + 1))).andThen <|
  Printing.compute (buildWithDiagram d.1.reverse.ref d.2.reverse fuel (List.range (max_dim + 1))) fun r =>
  (Printing.line "\nEssential:\n").andThen <|
  (Printing.loop (fun idx => (filt idx).bind fun f_val => (ripsDimension n_points (OrderDual.ofDual idx)).map fun dim =>
    some (dim, idx, OrderDual.ofDual f_val)) (essentialLine fmt) (enumE r.2.essential)).andThen <|
  (Printing.line "\nPairings:\n").andThen <|
  Printing.loop (fun tup => (ripsDimension n_points (OrderDual.ofDual tup.2)).bind fun dim =>
    (filt tup.2).bind fun birth_f => (filt tup.1).map fun death_f =>
      if longF64 (OrderDual.ofDual birth_f) (OrderDual.ofDual death_f) then
        some (dim, (tup.2, tup.1), OrderDual.ofDual birth_f, OrderDual.ofDual death_f) else none) (pairingLine fmt) (enumP r.2.pairings)

/-- `main`, phlite_rips/src/main.rs:16-88, from the text of the standard input and the arguments to the text of the standard output, with unbounded numbers. -/
def ripsStdout [StdHeap] (CF : Type) [NonZeroCoeff CF] (fmt : NotNan → String) (enumE : Finset RipsIndexᵒᵈ → List RipsIndexᵒᵈ)
    (enumP : Finset (RipsIndexᵒᵈ × RipsIndexᵒᵈ) → List (RipsIndexᵒᵈ × RipsIndexᵒᵈ)) (stdin : String) (args : List String) (fuel : Nat) : Printing :=
  Printing.compute (readMatrix parseF64 (csvRecords stdin)) fun distances =>
  Printing.compute (readArg args) fun arg =>
  Printing.compute (buildRipsCoboundaryMatrix CF distances (ripsMaxDim arg)) fun d =>
  ripsPrint fmt enumE enumP distances.length (ripsMaxDim arg) d fuel

/-- The same on a 64-bit machine, with `fi` for `RipsIndex::from_indices`: `fromIndices64` in a debug build, `fromIndicesRelease` in a release build. -/
def ripsStdoutW [StdHeap] (fi : FromIndices) (CF : Type) [NonZeroCoeff CF] (fmt : NotNan → String) (enumE : Finset RipsIndexᵒᵈ → List RipsIndexᵒᵈ)
    (enumP : Finset (RipsIndexᵒᵈ × RipsIndexᵒᵈ) → List (RipsIndexᵒᵈ × RipsIndexᵒᵈ)) (stdin : String) (args : List String) (fuel : Nat) : Printing :=
  Printing.compute (readMatrix parseF64 (csvRecords stdin)) fun distances =>
  Printing.compute (readArg args) fun arg =>
  Printing.compute (allocBases (ripsMaxDim arg)) fun _ =>
  Printing.compute (buildRipsCoboundaryMatrixW fi CF distances (ripsMaxDim arg)) fun d =>
  ripsPrint fmt enumE enumP distances.length (ripsMaxDim arg) d fuel

end Phlite
