/-!
# EnumSet  (source/enum_set.h)

Enumerants are `Nat`s (the underlying type is unsigned; every number computed
from an enumerant `v` — `64*(v/64)`, `v%64`, `start+offset` — fits the same
type, so casts are omitted). `none` = out-of-bounds vector access or a failed
assertion.
-/
namespace Verif.EnumSet

/-- `Bucket`, source/enum_set.h:70-79. -/
structure Bucket where
  data : BitVec 64
  start : Nat
  deriving DecidableEq, Repr

/-- Fields of `EnumSet`, source/enum_set.h:461-464. -/
structure ESet where
  buckets : List Bucket
  size : Nat
  deriving DecidableEq, Repr

/-- `ComputeLargestPossibleBucketIndexFor`, source/enum_set.h:360-362. -/
def largestIndex (v : Nat) : Nat := v / 64
/-- `ComputeBucketStart`, source/enum_set.h:366-369. -/
def bucketStart (v : Nat) : Nat := 64 * largestIndex v
/-- `ComputeBucketOffset`, source/enum_set.h:372-374. -/
def bucketOffset (v : Nat) : Nat := v % 64
/-- `ComputeMaskForValue`, source/enum_set.h:377-379. -/
def mask (v : Nat) : BitVec 64 := 1#64 <<< bucketOffset v
/-- `GetValueFromBucket`, source/enum_set.h:383-386. -/
def valueOf (b : Bucket) (offset : Nat) : Nat := b.start + offset

/-- The scan-left loop of `FindBucketForValue`, source/enum_set.h:411-417. -/
def findLoop (bs : List Bucket) (wanted : Nat) : Nat → Option Nat
  | 0 =>
    match bs[0]? with
    | none => none
    | some b => if b.start ≥ wanted then some 0 else some 1
  | i + 1 =>
    match bs[i + 1]? with
    | none => none
    | some b => if b.start ≥ wanted then findLoop bs wanted i else some (i + 2)

/-- `FindBucketForValue`, source/enum_set.h:391-418. -/
def findBucket (bs : List Bucket) (v : Nat) : Option Nat :=
  if bs.length = 0 then some 0
  else findLoop bs (bucketStart v) (min (bs.length - 1) (largestIndex v))

/-- `EnumSet()`, source/enum_set.h:191. -/
def empty : ESet := ⟨[], 0⟩

/-- `InsertBucketFor`, source/enum_set.h:423-434; `none` if the iterator is past
the end or one of the two ordering assertions (430-432) fails. -/
def insertBucketFor (bs : List Bucket) (index v : Nat) : Option (List Bucket) :=
  if index > bs.length then none
  else
    let b : Bucket := ⟨1#64 <<< bucketOffset v, bucketStart v⟩
    let r := bs.insertIdx index b
    let nextOk := match r[index + 1]? with
      | none => true
      | some n => decide (n.start > bucketStart v)
    let prevOk := decide (index = 0) || (match r[index - 1]? with
      | none => false
      | some p => decide (p.start < bucketStart v))
    if nextOk && prevOk then some r else none

/-- `insert`, source/enum_set.h:234-254. Returns the set, the iterator (bucket
index and offset) and whether the value was inserted. -/
def insert (s : ESet) (v : Nat) : Option (ESet × (Nat × Nat) × Bool) :=
  match findBucket s.buckets v with
  | none => none
  | some index =>
    let offset := bucketOffset v
    match s.buckets[index]? with
    | none =>
      (insertBucketFor s.buckets index v).map fun bs => (⟨bs, s.size + 1⟩, (index, offset), true)
    | some bucket =>
      if bucket.start ≠ bucketStart v then
        (insertBucketFor s.buckets index v).map fun bs => (⟨bs, s.size + 1⟩, (index, offset), true)
      else if (bucket.data &&& mask v) ≠ 0 then some (s, (index, offset), false)
      else some (⟨s.buckets.set index { bucket with data := bucket.data ||| mask v }, s.size + 1⟩,
        (index, offset), true)

/-- `erase`, source/enum_set.h:282-301. `size_ -= 1` wraps in `size_t` when the
counter is already 0; that is flagged as `none`. -/
def erase (s : ESet) (v : Nat) : Option (ESet × Nat) :=
  match findBucket s.buckets v with
  | none => none
  | some index =>
    match s.buckets[index]? with
    | none => some (s, 0)
    | some bucket =>
      if bucket.start ≠ bucketStart v then some (s, 0)
      else if (bucket.data &&& mask v) = 0 then some (s, 0)
      else if s.size = 0 then none
      else
        let bucket := { bucket with data := bucket.data &&& ~~~ (mask v) }
        let bs := s.buckets.set index bucket
        let bs := if bucket.data = 0 then bs.eraseIdx index else bs
        some (⟨bs, s.size - 1⟩, 1)

/-- `contains`, source/enum_set.h:304-312. -/
def contains (s : ESet) (v : Nat) : Option Bool :=
  match findBucket s.buckets v with
  | none => none
  | some index =>
    match s.buckets[index]? with
    | none => some false
    | some bucket =>
      if bucket.start ≠ bucketStart v then some false
      else some ((bucket.data &&& mask v) != 0)

/-- `empty`, source/enum_set.h:318. -/
def isEmpty (s : ESet) : Bool := s.size = 0

/-- The merge loop of `HasAnyOf`, source/enum_set.h:330-355. -/
def hasAnyLoop : List Bucket → List Bucket → Bool
  | [], _ => false
  | _, [] => false
  | l :: ls, r :: rs =>
    if l.start = r.start then
      if (l.data &&& r.data) ≠ 0 then true else hasAnyLoop ls rs
    else if l.start < r.start then hasAnyLoop ls (r :: rs)
    else hasAnyLoop (l :: ls) rs
termination_by a b => a.length + b.length

/-- `HasAnyOf`, source/enum_set.h:325-356. -/
def hasAnyOf (s inSet : ESet) : Bool :=
  if isEmpty inSet then true else hasAnyLoop s.buckets inSet.buckets

/-- `operator==`, source/enum_set.h:445-454. -/
def beq (a b : ESet) : Bool :=
  if a.size ≠ b.size then false
  else if a.buckets.length ≠ b.buckets.length then false
  else a.buckets == b.buckets

/-- `HasEnumAt`, source/enum_set.h:438-442. -/
def hasEnumAt (s : ESet) (bi off : Nat) : Option Bool :=
  match s.buckets[bi]? with
  | none => none
  | some b => if off < 64 then some ((b.data &&& (1#64 <<< off)) != 0) else none

/-- `Iterator::operator++`, source/enum_set.h:99-117; a do-while loop. -/
def next (s : ESet) (bi off : Nat) : Option (Nat × Nat) :=
  if bi ≥ s.buckets.length then some (s.buckets.length, 0)
  else
    let p := if off + 1 = 64 then (bi + 1, 0) else (bi, off + 1)
    if p.1 < s.buckets.length then
      match hasEnumAt s p.1 p.2 with
      | none => none
      | some true => some p
      | some false => if off < 64 then next s p.1 p.2 else none
    else some p
termination_by (s.buckets.length - bi, 64 - off)
decreasing_by
  by_cases h : off + 1 = 64
  · simp [h]; apply Prod.Lex.left; omega
  · simp [h]; apply Prod.Lex.right; omega

/-- `cbegin`, source/enum_set.h:167-180. -/
def begin (s : ESet) : Option (Nat × Nat) :=
  if s.buckets.length = 0 then some (0, 0)
  else
    match hasEnumAt s 0 0 with
    | none => none
    | some false => next s 0 0
    | some true => some (0, 0)

/-- `operator*`, source/enum_set.h:125-129. -/
def deref (s : ESet) (bi off : Nat) : Option Nat :=
  match hasEnumAt s bi off with
  | some true => s.buckets[bi]?.map fun b => valueOf b off
  | _ => none

/-- A client's `for (v : set)` loop, collecting the values: start at `cbegin()`,
stop at `cend() = (buckets_.size(), 0)` (source/enum_set.h:184-186). The fuel is
an upper bound for the number of steps; running out of it is `none`, so a `some`
result means the loop ended by itself. -/
def collect (s : ESet) : (fuel : Nat) → Nat × Nat → Option (List Nat)
  | 0, _ => none
  | n + 1, (bi, off) =>
    if (bi, off) = (s.buckets.length, 0) then some []
    else
      match deref s bi off, next s bi off with
      | some v, some p => (collect s n p).map (v :: ·)
      | _, _ => none

def iterate (s : ESet) : Option (List Nat) :=
  match begin s with
  | none => none
  | some p => collect s (64 * s.buckets.length + 1) p

/-- The moved-from source after `EnumSet(EnumSet&&)`, source/enum_set.h:223-224:
the vector is emptied by the move but `size_` is only copied. -/
def movedFrom (s : ESet) : ESet := ⟨[], s.size⟩

end Verif.EnumSet
