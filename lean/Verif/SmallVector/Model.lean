/-!
# `SmallVector<T, small_size>`  (source/util/small_vector.h)

The inline buffer is a sequence of slots, each either raw storage (`none`) or holding a
constructed object (`some v`).  Constructing over a live object, assigning to, reading or
destroying raw storage, and any access outside the buffer make the model return `none`
(undefined behaviour).  `std::vector` is trusted to be a sequence.  Iterators into the
vector are represented by the index they point at.
-/
namespace Verif.SmallVector
variable {α : Type}

abbrev Buf (α : Type) := List (Option α)

/-- What moving does to the element type: the value left in a moved-from object, and the
value left by `x = std::move(x)`. -/
structure Elem (α : Type) where
  moved : α → α
  selfMove : α → α

/-- Placement new `new (small_data_ + i) T(v)`. -/
def construct (b : Buf α) (i : Nat) (v : α) : Option (Buf α) :=
  match b[i]? with
  | some none => some (b.set i (some v))
  | _ => none

/-- `small_data_[i] = v`. -/
def assign (b : Buf α) (i : Nat) (v : α) : Option (Buf α) :=
  match b[i]? with
  | some (some _) => some (b.set i (some v))
  | _ => none

/-- `small_data_[i].~T()`. -/
def destroy (b : Buf α) (i : Nat) : Option (Buf α) :=
  match b[i]? with
  | some (some _) => some (b.set i none)
  | _ => none

/-- Reading `small_data_[i]`. -/
def read (b : Buf α) (i : Nat) : Option α :=
  match b[i]? with
  | some (some v) => some v
  | _ => none

/-- The members `size_`, the buffer behind `small_data_`, and `large_data_`
(source/util/small_vector.h:465-483). -/
structure SV (α : Type) where
  size : Nat
  buf : Buf α
  large : Option (List α)

/-- `small_size`. -/
def SV.cap (s : SV α) : Nat := s.buf.length

/-- `SmallVector()`, lines 50-53. -/
def create (cap : Nat) : SV α := ⟨0, List.replicate cap none, none⟩

/-- A loop `for (; i < i0 + c; ++i) op(small_data_, i, that.small_data_[i])`. -/
def copyLoop (op : Buf α → Nat → α → Option (Buf α)) (src : Buf α) : Nat → Nat → Buf α → Option (Buf α)
  | _, 0, b => some b
  | i, c + 1, b => do
    let v ← read src i
    let b' ← op b i v
    copyLoop op src (i + 1) c b'

/-- The same loop moving out of the source; returns destination and source. -/
def moveLoop (el : Elem α) (op : Buf α → Nat → α → Option (Buf α)) :
    Nat → Nat → Buf α → Buf α → Option (Buf α × Buf α)
  | _, 0, b, src => some (b, src)
  | i, c + 1, b, src => do
    let v ← read src i
    let b' ← op b i v
    let src' ← assign src i (el.moved v)
    moveLoop el op (i + 1) c b' src'

/-- A loop destroying the slots `i, …, i + c - 1`. -/
def destroyLoop : Nat → Nat → Buf α → Option (Buf α)
  | _, 0, b => some b
  | i, c + 1, b => do
    let b' ← destroy b i
    destroyLoop (i + 1) c b'

/-- A loop constructing the given values in the slots from `i` on. -/
def fillNew : Nat → List α → Buf α → Option (Buf α)
  | _, [], b => some b
  | i, v :: vs, b => do
    let b' ← construct b i v
    fillNew (i + 1) vs b'

/-- `DestructSmallData`, lines 458-463. -/
def destructSmall (s : SV α) : Option (SV α) := do
  let b ← destroyLoop 0 s.size s.buf
  some { s with size := 0, buf := b }

/-- The loop of `MoveToLargeData`, lines 451-453. -/
def drainLoop (el : Elem α) : Nat → Nat → Buf α → List α → Option (Buf α × List α)
  | _, 0, b, acc => some (b, acc)
  | i, c + 1, b, acc => do
    let v ← read b i
    let b' ← assign b i (el.moved v)
    drainLoop el (i + 1) c b' (acc ++ [v])

/-- `MoveToLargeData`, lines 448-455; the assertion is `large_data_ == nullptr`. -/
def moveToLarge (el : Elem α) (s : SV α) : Option (SV α) :=
  match s.large with
  | some _ => none
  | none => do
    let r ← drainLoop el 0 s.size s.buf []
    destructSmall { s with buf := r.1, large := some r.2 }

/-- `SmallVector(const std::vector<T>&)` and the constructor from `std::vector<T>&&`, lines
59-68 and 75-85 (`limit` is `small_size + 1`), and from an initializer list, lines 87-95
(`limit` is `small_size`: one element fewer is kept inline). -/
def fromList (cap limit : Nat) (vs : List α) : Option (SV α) :=
  if vs.length < limit then do
    let b ← fillNew 0 vs (List.replicate cap none)
    some ⟨vs.length, b, none⟩
  else some ⟨0, List.replicate cap none, some vs⟩

/-- Lines 59-68 and 75-85. -/
def fromVector (cap : Nat) (vs : List α) : Option (SV α) := fromList cap (cap + 1) vs
/-- Lines 87-95. -/
def fromInit (cap : Nat) (vs : List α) : Option (SV α) := fromList cap cap vs

/-- `operator=(const SmallVector&)`, lines 105-137.  With `that` the same object the loops
read what they write, which gives the same result. -/
def copyAssign (this that : SV α) : Option (SV α) :=
  match that.large with
  | some l => some { this with large := some l }
  | none => do
    let i := min this.size that.size
    let b ← copyLoop assign that.buf 0 i this.buf
    let b' ← if i ≥ that.size then destroyLoop i (this.size - i) b
      else copyLoop construct that.buf i (that.size - i) b
    some ⟨that.size, b', none⟩

/-- `operator=(SmallVector&&)` between two different objects, lines 139-169; the results are
`this` and `that`. -/
def moveAssign (el : Elem α) (this that : SV α) : Option (SV α × SV α) :=
  match that.large with
  | some l => do
    let t ← destructSmall { that with large := none }
    some ({ this with large := some l }, t)
  | none => do
    let i := min this.size that.size
    let r ← moveLoop el assign 0 i this.buf that.buf
    let r' ← if i ≥ that.size then do
        let b ← destroyLoop i (this.size - i) r.1
        some (b, r.2)
      else moveLoop el construct i (that.size - i) r.1 r.2
    let t ← destructSmall { that with buf := r'.2 }
    some (⟨that.size, r'.1, none⟩, t)

/-- The loop of lines 146-148 when both objects are the same. -/
def selfMoveLoop (el : Elem α) : Nat → Nat → Buf α → Option (Buf α)
  | _, 0, b => some b
  | i, c + 1, b => do
    let v ← read b i
    let b' ← assign b i (el.selfMove v)
    selfMoveLoop el (i + 1) c b'

/-- `operator=(SmallVector&&)` with `that` the object itself. -/
def selfMoveAssign (el : Elem α) (s : SV α) : Option (SV α) :=
  match s.large with
  | some _ => destructSmall s
  | none => do
    let b ← selfMoveLoop el 0 s.size s.buf
    destructSmall { s with buf := b }

/-- `size`, lines 218-224. -/
def SV.len (s : SV α) : Nat :=
  match s.large with
  | none => s.size
  | some l => l.length

/-- `operator[]` used for reading, lines 202-216. -/
def SV.at (s : SV α) (i : Nat) : Option α :=
  match s.large with
  | none => read s.buf i
  | some l => l[i]?

/-- `operator[]` used for writing. -/
def SV.setAt (s : SV α) (i : Nat) (v : α) : Option (SV α) :=
  match s.large with
  | none => do
    let b ← assign s.buf i v
    some { s with buf := b }
  | some l => if i < l.length then some { s with large := some (l.set i v) } else none

/-- `empty`, lines 392-397. -/
def SV.isEmpty (s : SV α) : Bool :=
  match s.large with
  | some l => l.isEmpty
  | none => s.size == 0

/-- The test at the start of the operations that may grow the vector: `MoveToLargeData` if
the data is inline and `full` holds. -/
def makeRoom (el : Elem α) (s : SV α) (full : Bool) : Option (SV α) :=
  if s.large.isNone && full then moveToLarge el s else some s

/-- Lines 317-323, `push_back` after making room. -/
def pushCore (v : α) (s : SV α) : Option (SV α) :=
  match s.large with
  | some l => some { s with large := some (l ++ [v]) }
  | none => do
    let b ← construct s.buf s.size v
    some { s with buf := b, size := s.size + 1 }

/-- `push_back` and `emplace_back`, lines 312-338 and 407-418. -/
def push (el : Elem α) (s : SV α) (v : α) : Option (SV α) :=
  (makeRoom el s (s.size == s.cap)).bind (pushCore v)

/-- `v.push_back(v[i])`: the argument is a reference, read when the new element is
constructed (lines 318 and 322), after `MoveToLargeData` if that was necessary.  In the last case
the reference points into the (growing) `std::vector`, which allows it. -/
def pushOwn (el : Elem α) (s : SV α) (i : Nat) : Option (SV α) := do
  let s' ← makeRoom el s (s.size == s.cap)
  match s.large, s'.large with
  | none, some l => do
    let v ← read s'.buf i
    some { s' with large := some (l ++ [v]) }
  | none, none => do
    let v ← read s'.buf i
    let b ← construct s'.buf s'.size v
    some { s' with buf := b, size := s'.size + 1 }
  | some l, _ => do
    let v ← l[i]?
    some { s with large := some (l ++ [v]) }

/-- `pop_back`, lines 340-347. -/
def pop (s : SV α) : Option (SV α) :=
  match s.large with
  | some l => if l.isEmpty then none else some { s with large := some l.dropLast }
  | none =>
    if s.size = 0 then none
    else do
      let b ← destroy s.buf (s.size - 1)
      some { s with size := s.size - 1, buf := b }

/-- Body of the loop of lines 368-375: move the element `j` to `i`. -/
def moveSlot (el : Elem α) (size : Nat) (b : Buf α) (i j : Nat) : Option (Buf α) := do
  let v ← read b j
  if i ≥ size then do
    let b' ← construct b i v
    assign b' j (el.moved v)
  else if i = j then assign b i (el.selfMove v)
  else do
    let b' ← assign b i v
    assign b' j (el.moved v)

/-- The loop of lines 368-375, on the elements `idx + k - 1, …, idx`. -/
def shiftLoop (el : Elem α) (size n idx : Nat) : Nat → Buf α → Option (Buf α)
  | 0, b => some b
  | k + 1, b => do
    let b' ← moveSlot el size b (idx + k + n) (idx + k)
    shiftLoop el size n idx k b'

/-- Lines 380-384. -/
def fillSlot (size : Nat) (b : Buf α) (p : Nat) (v : α) : Option (Buf α) :=
  if p ≥ size then construct b p v else assign b p v

/-- The loop of lines 377-385. -/
def fillLoop (size : Nat) : Nat → List α → Buf α → Option (Buf α)
  | _, [], b => some b
  | p, v :: vs, b => do
    let b' ← fillSlot size b p v
    fillLoop size (p + 1) vs b'

/-- Lines 358-389, `insert` after making room. -/
def insertCore (el : Elem α) (idx : Nat) (vs : List α) (s : SV α) : Option (SV α) :=
  match s.large with
  | some l =>
    if idx ≤ l.length then some { s with large := some (l.take idx ++ vs ++ l.drop idx) } else none
  | none => do
    let b ← shiftLoop el s.size vs.length idx (s.size - idx) s.buf
    let b' ← fillLoop s.size idx vs b
    some { s with size := s.size + vs.length, buf := b' }

/-- `insert(pos, first, last)`, lines 349-390 (the range does not point into the vector
itself). -/
def insert (el : Elem α) (s : SV α) (idx : Nat) (vs : List α) : Option (SV α) :=
  (makeRoom el s (decide (s.size + vs.length > s.cap))).bind (insertCore el idx vs)

/-- The loop of lines 295-300: move the elements `l, …, l + c - 1` down to `f, …`. -/
def moveDown (el : Elem α) : Nat → Nat → Nat → Buf α → Option (Buf α)
  | _, _, 0, b => some b
  | f, l, c + 1, b => do
    let v ← read b l
    let b' ← assign b f v
    let b'' ← assign b' l (el.moved v)
    moveDown el (f + 1) (l + 1) c b''

/-- `erase(first, last)`, lines 272-310. -/
def erase (el : Elem α) (s : SV α) (first last : Nat) : Option (SV α) :=
  match s.large with
  | some l =>
    if first ≤ last ∧ last ≤ l.length then some { s with large := some (l.take first ++ l.drop last) }
    else none
  | none =>
    if first = last then some s
    else do
      let b ← moveDown el first last (s.size - last) s.buf
      let b' ← destroyLoop (first + (s.size - last)) (last - first) b
      some { s with size := s.size - (last - first), buf := b' }

/-- `clear`, lines 399-405. -/
def clear (s : SV α) : Option (SV α) :=
  match s.large with
  | some _ => some { s with large := some [] }
  | none => destructSmall s

/-- Lines 426-442, `resize` after making room. -/
def resizeCore (n : Nat) (v : α) (s : SV α) : Option (SV α) :=
  match s.large with
  | some l => some { s with large := some (l.take n ++ List.replicate (n - l.length) v) }
  | none => do
    let b ← destroyLoop n (s.size - n) s.buf
    let b' ← fillNew s.size (List.replicate (n - s.size) v) b
    some { s with size := n, buf := b' }

/-- `resize`, lines 421-443. -/
def resize (el : Elem α) (s : SV α) (n : Nat) (v : α) : Option (SV α) :=
  (makeRoom el s (decide (n > s.cap))).bind (resizeCore n v)

/-- `~SmallVector`, lines 99-103; `none` = undefined behaviour. -/
def destruct (s : SV α) : Option Unit := (destroyLoop 0 s.size s.buf).map (fun _ => ())

/-- `SmallVector(const SmallVector&)`, line 55. -/
def newCopy (cap : Nat) (that : SV α) : Option (SV α) := copyAssign (create cap) that
/-- `SmallVector(SmallVector&&)`, line 57. -/
def newMove (el : Elem α) (cap : Nat) (that : SV α) : Option (SV α × SV α) := moveAssign el (create cap) that
/-- `SmallVector(first, last)`, lines 70-73. -/
def newRange (el : Elem α) (cap : Nat) (vs : List α) : Option (SV α) := insert el (create cap) 0 vs
/-- `SmallVector(s, v)`, line 97. -/
def newFill (el : Elem α) (cap n : Nat) (v : α) : Option (SV α) := resize el (create cap) n v

/-- `operator==` with another sequence, lines 171-184 (for an element type whose `!=` is
`eq`'s negation). -/
def eqLoop (eq : α → α → Bool) : List α → List α → Bool
  | [], _ => true
  | _ :: _, [] => false
  | a :: as, b :: bs => if eq a b then eqLoop eq as bs else false

/-- `operator==`, lines 171-184. -/
def svEq (eq : α → α → Bool) (s : SV α) (rhs : List α) : Option Bool := do
  if s.len ≠ rhs.length then some false
  else do
    let l ← (List.range s.len).mapM s.at
    some (eqLoop eq l rhs)

end Verif.SmallVector
