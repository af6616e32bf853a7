/-
Model of phlite/src/columns.rs.
-/
import Verif.Model.Fields
import Mathlib.Data.Multiset.Basic
import Mathlib.Data.Prod.Lex

namespace Phlite

/-- `ColumnEntry`, phlite/src/columns.rs:11-23. -/
structure Entry (F Row CF : Type) where
  filt : F
  row : Row
  coeff : CF
deriving DecidableEq

namespace Entry
variable {F Row CF : Type}

/-- The comparison key of an entry: `Ord for ColumnEntry` compares `(filtration_value, row_index)`
lexicographically, phlite/src/columns.rs:79-83. -/
def key (e : Entry F Row CF) : F ×ₗ Row := toLex (e.filt, e.row)

/-- `Mul<CF> for ColumnEntry`, phlite/src/columns.rs:85-97. -/
def scale [NonZeroCoeff CF] (e : Entry F Row CF) (m : CF) : Entry F Row CF :=
  { filt := e.filt, row := e.row, coeff := NonZeroCoeff.mul e.coeff m }

/-- `From<(CF, RowT, FilT)> for ColumnEntry`, phlite/src/columns.rs:39-49. -/
def ofTuple (t : CF × Row × F) : Entry F Row CF := ⟨t.2.2, t.2.1, t.1⟩

/-- `From<ColumnEntry> for (CF, RowT, FilT)`, phlite/src/columns.rs:51-57. -/
def toTuple (e : Entry F Row CF) : CF × Row × F := (e.coeff, e.row, e.filt)
end Entry

/-- The contract of `std::collections::BinaryHeap` used by `BHCol` (phlite/src/columns.rs:110-112): a max-heap on the
key of the entries. `pop` removes *some* maximal entry (ties are broken arbitrarily), `peek` shows the entry that
`pop` would remove. `bag` is the multiset of stored entries (specification only).
All theorems quantify over every implementation of this contract. -/
class StdHeap where
  H : (F Row CF : Type) → [LinearOrder F] → [LinearOrder Row] → Type
  empty : {F Row CF : Type} → [LinearOrder F] → [LinearOrder Row] → H F Row CF
  push : {F Row CF : Type} → [LinearOrder F] → [LinearOrder Row] → H F Row CF → Entry F Row CF → H F Row CF
  pop : {F Row CF : Type} → [LinearOrder F] → [LinearOrder Row] → H F Row CF → Option (Entry F Row CF × H F Row CF)
  peek : {F Row CF : Type} → [LinearOrder F] → [LinearOrder Row] → H F Row CF → Option (Entry F Row CF)
  bag : {F Row CF : Type} → [LinearOrder F] → [LinearOrder Row] → H F Row CF → Multiset (Entry F Row CF)
  bag_empty : ∀ {F Row CF : Type} [LinearOrder F] [LinearOrder Row], bag (empty : H F Row CF) = 0
  bag_push : ∀ {F Row CF : Type} [LinearOrder F] [LinearOrder Row] (h : H F Row CF) (e : Entry F Row CF),
    bag (push h e) = e ::ₘ bag h
  pop_none : ∀ {F Row CF : Type} [LinearOrder F] [LinearOrder Row] (h : H F Row CF),
    pop h = none → bag h = 0
  pop_bag : ∀ {F Row CF : Type} [LinearOrder F] [LinearOrder Row] (h h' : H F Row CF) (e : Entry F Row CF),
    pop h = some (e, h') → bag h = e ::ₘ bag h'
  pop_max : ∀ {F Row CF : Type} [LinearOrder F] [LinearOrder Row] (h h' : H F Row CF) (e : Entry F Row CF),
    pop h = some (e, h') → ∀ x ∈ bag h, x.key ≤ e.key
  peek_pop : ∀ {F Row CF : Type} [LinearOrder F] [LinearOrder Row] (h : H F Row CF),
    peek h = (pop h).map Prod.fst

section
variable [StdHeap] {F Row CF : Type} [LinearOrder F] [LinearOrder Row]

/-- `BHCol`, phlite/src/columns.rs:110-112: a binary heap of entries. -/
abbrev BHCol (F Row CF : Type) [LinearOrder F] [LinearOrder Row] : Type := StdHeap.H F Row CF

namespace BHCol

/-- `BHCol::default`, phlite/src/columns.rs:123-129. -/
def empty : BHCol F Row CF := StdHeap.empty

/-- `BHCol::add_entry`, phlite/src/columns.rs:134-136. -/
def addEntry (h : BHCol F Row CF) (e : Entry F Row CF) : BHCol F Row CF := StdHeap.push h e

/-- `BHCol::add_entries`, phlite/src/columns.rs:141-149 (`reserve` has no observable effect). -/
def addEntries (h : BHCol F Row CF) (es : List (Entry F Row CF)) : BHCol F Row CF := es.foldl addEntry h

/-- `BHCol::add_tuple`, phlite/src/columns.rs:152-154. -/
def addTuple (h : BHCol F Row CF) (t : CF × Row × F) : BHCol F Row CF := addEntry h (Entry.ofTuple t)

/-- `BHCol::add_tuples`, phlite/src/columns.rs:157-159. -/
def addTuples (h : BHCol F Row CF) (ts : List (CF × Row × F)) : BHCol F Row CF :=
  addEntries h (ts.map Entry.ofTuple)

/-- `BHCol::peek_pivot`, phlite/src/columns.rs:246-248. -/
def peekPivot (h : BHCol F Row CF) : Option (Entry F Row CF) := StdHeap.peek h

theorem card_pop {h h' : BHCol F Row CF} {e : Entry F Row CF} (hp : StdHeap.pop h = some (e, h')) :
    (StdHeap.bag h').card < (StdHeap.bag h).card := by
  rw [StdHeap.pop_bag h h' e hp]; simp

variable [NonZeroCoeff CF]

/-- The `loop` of `BHCol::pop_pivot` with the final `working_sum.map`, phlite/src/columns.rs:191-218.
Arguments: heap, `working_index`, `working_sum`, `working_filtration`.
Simplification: `peek` followed by `pop().expect(..)` is one `pop` (the peeked entry is the popped entry by the heap
contract, so the `expect` cannot fire). -/
def popLoop (h : BHCol F Row CF) (wi : Row) (ws : Option CF) (wf : F) :
    Option (Entry F Row CF) × BHCol F Row CF :=
  match hp : StdHeap.pop h with
  | none => (ws.map fun c => ⟨wf, wi, c⟩, h)
  | some (next, h') =>
    have := card_pop hp
    if next.row ≠ wi then
      match ws with
      | some c => (some ⟨wf, wi, c⟩, h)
      | none => popLoop h' next.row (NonZeroCoeff.addOpt next.coeff none) next.filt
    else popLoop h' wi (NonZeroCoeff.addOpt next.coeff ws) wf
termination_by (StdHeap.bag h).card

/-- `BHCol::pop_pivot`, phlite/src/columns.rs:181-219: returns the pivot and the remaining heap. -/
def popPivot (h : BHCol F Row CF) : Option (Entry F Row CF) × BHCol F Row CF :=
  match StdHeap.pop h with
  | none => (none, h)
  | some (first, h') => popLoop h' first.row (some first.coeff) first.filt

/-- `BHCol::clone_pivot`, phlite/src/columns.rs:222-235. -/
def clonePivot (h : BHCol F Row CF) : Option (Entry F Row CF) × BHCol F Row CF :=
  match popPivot h with
  | (some pivot, h') => (some pivot, addEntry h' pivot)
  | (none, h') => (none, h')

/-- `drain_sorted` run to exhaustion (`repeat(()).map_while(|()| self.pop_pivot())`),
phlite/src/columns.rs:164-169. Takes fuel; `none` = out of fuel. -/
def drainFuel : Nat → BHCol F Row CF → Option (List (Entry F Row CF) × BHCol F Row CF)
  | 0, _ => none
  | n + 1, h =>
    match popPivot h with
    | (none, h') => some ([], h')
    | (some e, h') => (drainFuel n h').map fun p => (e :: p.1, p.2)

/-- `BHCol::to_sorted_vec` / `drain_sorted().collect()`, phlite/src/columns.rs:164-177.
Fuel: the number of stored entries plus one (proved sufficient, so `none` never occurs). -/
def toSortedVec (h : BHCol F Row CF) : Option (List (Entry F Row CF)) :=
  (drainFuel ((StdHeap.bag h).card + 1) h).map Prod.fst

end BHCol
end
end Phlite
