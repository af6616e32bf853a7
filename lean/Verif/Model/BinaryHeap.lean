/-
Model of `std::collections::BinaryHeap` (Rust's standard library, not in the repository), which `BHCol` (phlite/src/columns.rs:110-112) and petgraph's `dijkstra` use.
A hole that is moved is modelled by swapping entries. `key` is what the elements' `Ord` compares.
-/
import Verif.Model.Columns

namespace Phlite.ArrayHeap
variable {α κ : Type} [LinearOrder κ] (key : α → κ)

/-- `BinaryHeap::sift_up(0, pos)`; the first argument bounds the number of iterations (`pos` is enough). -/
def siftUp : Nat → Array α → Nat → Array α
  | 0, a, _ => a
  | fuel + 1, a, pos =>
    if h : 0 < pos ∧ pos < a.size then
      let parent := (pos - 1) / 2
      have hp : parent < a.size := by omega
      if key a[pos] ≤ key a[parent] then a else siftUp fuel (a.swap pos parent) parent
    else a

/-- `BinaryHeap::push`. -/
def push (a : Array α) (x : α) : Array α := siftUp key a.size (a.push x) a.size

/-- The loop of `BinaryHeap::sift_down_to_bottom`: moves the element at `pos` down along the larger children (the right one if they are equal); returns the final
position. The first argument bounds the number of iterations. -/
def siftDown : Nat → Array α → Nat → Array α × Nat
  | 0, a, pos => (a, pos)
  | fuel + 1, a, pos =>
    let child := 2 * pos + 1
    if h : child + 1 < a.size then
      if key a[child] ≤ key a[child + 1] then siftDown fuel (a.swap pos (child + 1)) (child + 1)
      else siftDown fuel (a.swap pos child) child
    else if h : child + 1 = a.size then (a.swap pos child, child)
    else (a, pos)

/-- `BinaryHeap::sift_down_to_bottom(0)`. -/
def siftDownToBottom (a : Array α) : Array α :=
  let p := siftDown key a.size a 0
  siftUp key p.2 p.1 p.2

/-- `BinaryHeap::pop`: removes the last element, exchanges it with the first one and sifts it down. -/
def pop (a : Array α) : Option (α × Array α) :=
  match a.back? with
  | none => none
  | some last =>
    let b := a.pop
    if h : 0 < b.size then some (b[0], siftDownToBottom key (b.set 0 last)) else some (last, b)

/-- `BinaryHeap::peek`. -/
def peek (a : Array α) : Option α := a[0]?

end Phlite.ArrayHeap
