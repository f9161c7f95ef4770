/-!
# Explicit layout of blocks: source/val/validate_explicit_layout.cpp

`CheckLayout` decides whether the `Offset`, `ArrayStride` and `MatrixStride` decorations of a
type are acceptable.  A type is modelled as the tree of its definition with the decorations
at their places: the validator has already rejected types that contain themselves (but
through pointers, whose pointee plays no role here).  All numbers of the C++ are `uint32_t`;
here they are `Nat`s below 2^32 and every operation that can wrap is followed by `w`.

Not modelled: the texts of the messages (the result is accepted or not), the caches (they
hold only successful results under a key of all arguments the result depends on) and the
selection of the types that are checked (`Run`).
-/
namespace Verif.BlockLayout

/-- `std::numeric_limits<uint32_t>::max()`, the mark of a value not known before
specialisation. -/
def unknown : Nat := 2 ^ 32 - 1

/-- Reduction to 32 bits. -/
def w (n : Nat) : Nat := n % 2 ^ 32

/-- `LayoutMode` (validate_explicit_layout.cpp:34-41). -/
inductive Mode where
  | scalar
  | standard
  | extended
deriving DecidableEq, Repr

/-- `MatrixConstraints` (validate_explicit_layout.cpp:89-92). -/
structure MC where
  stride : Nat := 0
  colMajor : Bool := true
deriving DecidableEq, Repr

/-- `MemberInfo` (validate_explicit_layout.cpp:98-110), without the index: here it is kept
next to the member. -/
structure Info where
  hasOffset : Bool := true
  offset : Nat
  hasMatrix : Bool := false
  mc : MC := {}
deriving DecidableEq, Repr

/-- Types with their layout decorations. -/
inductive Ty where
  /-- `OpTypeInt`, `OpTypeFloat`, width in bytes -/
  | scalar (bytes : Nat)
  /-- pointers and descriptors, whose size and alignment are given from outside -/
  | handle (bytes align : Nat)
  /-- `OpTypeVector`, `OpTypeVectorIdEXT`: width of the components, number -/
  | vector (bytes n : Nat)
  /-- `OpTypeMatrix`: width of the components, rows, columns -/
  | matrix (bytes rows cols : Nat)
  /-- `OpTypeArray`: length (`none` if not known before specialisation), decoration
  `ArrayStride` (if present; may be `unknown`), element -/
  | array (count : Option Nat) (stride : Option Nat) (el : Ty)
  /-- `OpTypeRuntimeArray` -/
  | rtarray (stride : Option Nat) (el : Ty)
  /-- `OpTypeStruct`: decorations of the members, types of the members -/
  | struct (infos : List Info) (tys : List Ty)

/-- `IsAlignedTo` (validate_explicit_layout.cpp:492-495). -/
def isAlignedTo (value align : Nat) : Bool :=
  if align = 0 then value = 0 else value % align = 0

/-- `AlignTo` (validate_explicit_layout.cpp:498-500); `~(align - 1)` is `2^32 - align`. -/
def alignTo (value align : Nat) : Nat := w (value + align + (2 ^ 32 - 1)) &&& (2 ^ 32 - align)

/-- `HasImproperStraddle` (validate_explicit_layout.cpp:509-519). -/
def improperStraddle (offset size : Nat) : Bool :=
  if size ≤ 16 then offset >>> 4 ≠ w (offset + size + (2 ^ 32 - 1)) >>> 4 else offset % 16 ≠ 0

/-- Stable insertion by offset. -/
def insertBy {α : Type} (key : α → Nat) (x : α) : List α → List α
  | [] => [x]
  | y :: ys => if key x ≤ key y then x :: y :: ys else y :: insertBy key x ys

/-- The stable sort of the members by offset in `GetStructMembers`
(validate_explicit_layout.cpp:749-753). -/
def sortBy {α : Type} (key : α → Nat) : List α → List α
  | [] => []
  | x :: xs => insertBy key x (sortBy key xs)

/-- Factor of the alignment of a vector (validate_explicit_layout.cpp:557). -/
def vecFactor (n : Nat) : Nat := if n = 3 ∨ n > 4 then 4 else n

/-- Rounding of alignments to 16 in extended layouts. -/
def ext16 (mode : Mode) (a : Nat) : Nat := if mode = .extended then alignTo a 16 else a

/-- The alignment of a vector (validate_explicit_layout.cpp:546-558). -/
def vecAlign (mode : Mode) (relaxed allow : Bool) (bytes n : Nat) : Nat :=
  if mode = .scalar ∨ (allow && relaxed) then bytes else w (bytes * vecFactor n)

/-- The alignment of a matrix (validate_explicit_layout.cpp:559-587). -/
def matAlign (mode : Mode) (relaxed : Bool) (mc : MC) (bytes rows cols : Nat) : Nat :=
  if mode = .scalar then bytes
  else if mc.colMajor then ext16 mode (vecAlign mode relaxed false bytes rows)
  else ext16 mode (w (bytes * if cols = 3 then 4 else cols))

/-- The accumulated alignment of the members of a struct
(validate_explicit_layout.cpp:596-606). -/
def maxAlign (mode : Mode) : Nat → List Nat → Nat
  | a, [] => a
  | a, b :: bs => maxAlign mode (ext16 mode (max a b)) bs

mutual
/-- `GetAlign` (validate_explicit_layout.cpp:521-614). -/
def align (mode : Mode) (relaxed : Bool) (mc : MC) (allow : Bool) : Ty → Nat
  | .scalar b => b
  | .handle _ a => a
  | .vector b n => vecAlign mode relaxed allow b n
  | .matrix b r c => matAlign mode relaxed mc b r c
  | .array _ _ el => ext16 mode (align mode relaxed mc false el)
  | .rtarray _ el => ext16 mode (align mode relaxed mc false el)
  | .struct infos tys => maxAlign mode 1 (aligns mode relaxed infos tys)

/-- The alignments of the members of a struct. -/
def aligns (mode : Mode) (relaxed : Bool) : List Info → List Ty → List Nat
  | i :: is, t :: ts => align mode relaxed i.mc true t :: aligns mode relaxed is ts
  | [], _ => []
  | _ :: _, [] => []
end

/-- The size of a matrix (validate_explicit_layout.cpp:664-676). -/
def matSize (mc : MC) (bytes rows cols : Nat) : Nat :=
  if mc.colMajor then w (cols * mc.stride)
  else w (w (rows + (2 ^ 32 - 1)) * mc.stride + cols * bytes)

/-- The size of an array of known length (validate_explicit_layout.cpp:647-661). -/
def arraySize (count : Nat) (stride : Option Nat) (elSize : Nat) : Nat :=
  if stride.getD unknown = unknown then elSize
  else w (w (w count + (2 ^ 32 - 1)) * stride.getD unknown + elSize)

/-- The size of a struct from the offsets and sizes of its members
(validate_explicit_layout.cpp:677-687): where the last one by offset ends. -/
def structSize (ms : List (Nat × Nat)) : Nat :=
  match (sortBy Prod.fst ms).getLast? with
  | none => 0
  | some (o, s) => if o = unknown then 0 else w (o + s)

mutual
/-- `GetSize` (validate_explicit_layout.cpp:618-695). -/
def size (mc : MC) : Ty → Nat
  | .scalar b => b
  | .handle b _ => b
  | .vector b n => w (b * n)
  | .matrix b r c => matSize mc b r c
  | .array none _ _ => 0
  | .array (some n) s el => arraySize n s (size mc el)
  | .rtarray _ _ => 0
  | .struct infos tys => structSize (sizes infos tys)

/-- Offsets and sizes of the members of a struct. -/
def sizes : List Info → List Ty → List (Nat × Nat)
  | i :: is, t :: ts => (i.offset, size i.mc t) :: sizes is ts
  | [], _ => []
  | _ :: _, [] => []
end

/-- `ContainsMatrix` (validate_explicit_layout.cpp:432-445). -/
def containsMatrix : Ty → Bool
  | .matrix _ _ _ => true
  | .array _ _ el => containsMatrix el
  | .rtarray _ el => containsMatrix el
  | _ => false

/-- What `CheckStructLayout` needs to know about a member. -/
structure Rec where
  offset : Nat
  align : Nat
  size : Nat
  /-- `OpTypeRuntimeArray` -/
  isRt : Bool
  /-- `OpTypeVector` -/
  isVec : Bool
  /-- `OpTypeArray` or `OpTypeStruct` -/
  isAggr : Bool
  /-- result of `CheckLayout` for the member -/
  child : Bool

def isRt : Ty → Bool | .rtarray _ _ => true | _ => false
def isVec : Ty → Bool | .vector _ _ => true | _ => false
def isAggr : Ty → Bool | .array _ _ _ => true | .struct _ _ => true | _ => false

/-- Decorations all members must have (validate_explicit_layout.cpp:801-827). -/
def decorated : List Info → List Ty → Bool
  | i :: is, t :: ts =>
    i.hasOffset && (!containsMatrix t || (i.hasMatrix && i.mc.stride != 0)) && decorated is ts
  | [], _ => true
  | _ :: _, [] => true

/-- Where the next member may start (validate_explicit_layout.cpp:894-900). -/
def nextOffset (mode : Mode) (m : Rec) : Nat :=
  if mode ≠ .scalar ∧ m.isAggr then alignTo (w (m.size + m.offset)) m.align
  else w (m.size + m.offset)

/-- The tests of one member (validate_explicit_layout.cpp:837-892); `last` if it is the last
by offset. -/
def memberOk (mode : Mode) (relaxed : Bool) (incoming next : Nat) (last : Bool) (m : Rec) : Bool :=
  !(m.isRt && !last) &&
  isAlignedTo m.offset m.align &&
  isAlignedTo (w (m.offset + incoming)) m.align &&
  !(m.offset < next) &&
  !(mode ≠ .scalar && relaxed && m.isVec && improperStraddle (w (incoming + m.offset)) m.size) &&
  m.child

/-- The loop over the members in the order of their offsets
(validate_explicit_layout.cpp:829-901). -/
def walk (mode : Mode) (relaxed : Bool) (incoming : Nat) : Nat → List Rec → Bool
  | _, [] => true
  | next, m :: ms =>
    if m.offset = unknown then walk mode relaxed incoming next ms
    else memberOk mode relaxed incoming next ms.isEmpty m &&
      walk mode relaxed incoming (nextOffset mode m) ms

/-- `CheckMatrixLayout` (validate_explicit_layout.cpp:980-1016). -/
def checkMatrix (mode : Mode) (relaxed : Bool) (mc : MC) (bytes rows cols : Nat) : Bool :=
  mc.stride = 0 ||
  (isAlignedTo mc.stride (matAlign mode relaxed mc bytes rows cols) &&
   !(mc.stride < if mc.colMajor then w (bytes * rows) else w (bytes * cols)))

/-- The loop over the elements of an array (validate_explicit_layout.cpp:958-974).  At most
16 elements are looked at, so `fuel` 17 is enough. -/
def elements (f : Nat → Bool) (stride incoming n : Nat) : Nat → Nat → List Nat → Bool
  | 0, _, _ => true
  | fuel + 1, i, seen =>
    if i < n then
      if seen.contains (w (i * stride + incoming) % 16) then true
      else f (w (i * stride + incoming)) &&
        elements f stride incoming n fuel (i + 1) (w (i * stride + incoming) % 16 :: seen)
    else true

/-- `CheckArrayLayout` (validate_explicit_layout.cpp:912-976); `f` is `CheckLayout` of the
element. -/
def checkArray (count : Nat) (stride : Option Nat) (elSize align incoming : Nat) (f : Nat → Bool) : Bool :=
  match stride with
  | none => false
  | some s =>
    if s = 0 then false
    else if s = unknown then true
    else isAlignedTo s align && !(s < elSize) && elements f s incoming (max 1 (w count)) 17 0 []

mutual
/-- `CheckLayout` (validate_explicit_layout.cpp:1019-1064) with `CheckStructLayout`
(797-904), without the option `skip_block_layout`. -/
def check (mode : Mode) (relaxed : Bool) (mc : MC) (incoming : Nat) : Ty → Bool
  | .scalar _ => true
  | .handle _ _ => true
  | .vector _ _ => true
  | .matrix b r c => checkMatrix mode relaxed mc b r c
  | .array n s el =>
    checkArray (n.getD 0) s (size mc el) (ext16 mode (align mode relaxed mc false el)) incoming
      (fun o => check mode relaxed mc o el)
  | .rtarray s el =>
    checkArray 0 s (size mc el) (ext16 mode (align mode relaxed mc false el)) incoming
      (fun o => check mode relaxed mc o el)
  | .struct infos tys =>
    decorated infos tys &&
    walk mode relaxed incoming 0 (sortBy Rec.offset (recs mode relaxed mc incoming infos tys))

/-- The members of a struct (validate_explicit_layout.cpp:846-850, 889-894). -/
def recs (mode : Mode) (relaxed : Bool) (mc : MC) (incoming : Nat) : List Info → List Ty → List Rec
  | i :: is, t :: ts =>
    { offset := i.offset
      align := align mode relaxed (if i.hasMatrix then i.mc else mc) true t
      size := size (if i.hasMatrix then i.mc else mc) t
      isRt := isRt t, isVec := isVec t, isAggr := isAggr t
      child := check mode relaxed (if i.hasMatrix then i.mc else mc) (w (incoming + i.offset)) t } ::
    recs mode relaxed mc incoming is ts
  | [], _ => []
  | _ :: _, [] => []
end

end Verif.BlockLayout
