/-!
# Intrusive lists  (source/util/ilist.h, source/util/ilist_node.h)

Nodes are addresses; the heap maps an address to the members `next_node_`,
`previous_node_` (`none` = null pointer) and `is_sentinel_` of the node living there.  A list
is identified with the address of its sentinel.  Dereferencing a null or dead pointer, or
failing an assertion, gives `none`.
-/
namespace Verif.IList

def upd {β : Type} (f : Nat → β) (a : Nat) (b : β) : Nat → β := fun i => if i = a then b else f i

/-- The members of all nodes (source/util/ilist_node.h:95-104). -/
structure Heap where
  live : Nat → Bool
  next : Nat → Option Nat
  prev : Nat → Option Nat
  sent : Nat → Bool

/-- No node exists. -/
def Heap.empty : Heap := ⟨fun _ => false, fun _ => none, fun _ => none, fun _ => false⟩

/-- `assert(c)`, or a necessary condition of a dereference. -/
def require (c : Bool) : Option Unit := if c then some () else none

/-- The object `*p`. -/
def deref (h : Heap) (p : Option Nat) : Option Nat :=
  match p with
  | none => none
  | some a => if h.live a then some a else none

/-- `p->next_node_ = v`. -/
def setNext (h : Heap) (p v : Option Nat) : Option Heap :=
  match deref h p with
  | none => none
  | some a => some { h with next := upd h.next a v }

/-- `p->previous_node_ = v`. -/
def setPrev (h : Heap) (p v : Option Nat) : Option Heap :=
  match deref h p with
  | none => none
  | some a => some { h with prev := upd h.prev a v }

/-- `IntrusiveNodeBase()`, ilist_node.h:110-111 (and the copy constructor, 114-119) on fresh
storage `a`. -/
def newNode (h : Heap) (a : Nat) : Option Heap :=
  if h.live a then none
  else some ⟨upd h.live a true, upd h.next a none, upd h.prev a none, upd h.sent a false⟩

/-- `IntrusiveList()`, ilist.h:209-213. -/
def newList (h : Heap) (a : Nat) : Option Heap :=
  if h.live a then none
  else some ⟨upd h.live a true, upd h.next a (some a), upd h.prev a (some a), upd h.sent a true⟩

/-- `IsInAList`, ilist_node.h:156-158. -/
def isInAList (h : Heap) (a : Nat) : Bool := (h.next a).isSome

/-- `~IntrusiveNodeBase` of a node that is not a sentinel, ilist_node.h:144-146. -/
def deleteNode (h : Heap) (a : Nat) : Option Heap := do
  require (h.live a && !h.sent a)
  require (!isInAList h a)
  some { h with live := upd h.live a false }

/-- `NextNode`, ilist_node.h:161-164; the inner `none` is the null pointer. -/
def nextNode (h : Heap) (a : Nat) : Option (Option Nat) := do
  require (h.live a)
  let n ← deref h (h.next a)
  if !h.sent n then some (some n) else some none

/-- `PreviousNode`, ilist_node.h:167-170. -/
def previousNode (h : Heap) (a : Nat) : Option (Option Nat) := do
  require (h.live a)
  let n ← deref h (h.prev a)
  if !h.sent n then some (some n) else some none

/-- `RemoveFromList`, ilist_node.h:201-210. -/
def removeFromList (h : Heap) (n : Nat) : Option Heap := do
  require (h.live n)
  require (!h.sent n)
  require (isInAList h n)
  let h1 ← setPrev h (h.next n) (h.prev n)
  let h2 ← setNext h1 (h1.prev n) (h1.next n)
  let h3 ← setNext h2 (some n) none
  setPrev h3 (some n) none

/-- Lines 176 and 190-192: `if (this->IsInAList()) this->RemoveFromList();`. -/
def detach (h : Heap) (n : Nat) : Option Heap :=
  if isInAList h n then removeFromList h n else some h

/-- Lines 178-181 of `InsertBefore`. -/
def linkBefore (n pos : Nat) (h : Heap) : Option Heap := do
  let h1 ← setNext h (some n) (some pos)
  require (h1.live pos)
  let h2 ← setPrev h1 (some n) (h1.prev pos)
  let h3 ← setPrev h2 (some pos) (some n)
  setNext h3 (h3.prev n) (some n)

/-- `InsertBefore`, ilist_node.h:173-182. -/
def insertBefore (h : Heap) (n pos : Nat) : Option Heap := do
  require (h.live n && !h.sent n)
  require (h.live pos && isInAList h pos)
  let h1 ← detach h n
  linkBefore n pos h1

/-- Lines 194-197 of `InsertAfter`. -/
def linkAfter (n pos : Nat) (h : Heap) : Option Heap := do
  let h1 ← setPrev h (some n) (some pos)
  require (h1.live pos)
  let h2 ← setNext h1 (some n) (h1.next pos)
  let h3 ← setNext h2 (some pos) (some n)
  setPrev h3 (h3.next n) (some n)

/-- `InsertAfter`, ilist_node.h:185-198. -/
def insertAfter (h : Heap) (n pos : Nat) : Option Heap := do
  require (h.live n && !h.sent n)
  require (h.live pos && isInAList h pos)
  require (n != pos)
  let h1 ← detach h n
  linkAfter n pos h1

/-- `IsEmptyList`, ilist_node.h:251-260. -/
def isEmptyList (h : Heap) (a : Nat) : Option Bool := do
  require (h.live a)
  if h.next a = some a then do
    require (h.sent a)
    require (h.prev a == some a)
    some true
  else some false

/-- Lines 226-229 of `ReplaceWith`. -/
def takePlace (this target : Nat) (h : Heap) : Option Heap := do
  let h1 ← setNext h (some target) (h.next this)
  let h2 ← setPrev h1 (some target) (h1.prev this)
  let h3 ← setPrev h2 (h2.next target) (some target)
  setNext h3 (h3.prev target) (some target)

/-- Lines 231-242 of `ReplaceWith`. -/
def resetSelf (this : Nat) (h : Heap) : Option Heap :=
  if !h.sent this then do
    let h1 ← setNext h (some this) none
    setPrev h1 (some this) none
  else do
    let h1 ← setNext h (some this) (some this)
    setPrev h1 (some this) (some this)

/-- Assertions of `ReplaceWith`, lines 214-222. -/
def replaceAsserts (h : Heap) (this target : Nat) : Option Unit :=
  if h.sent this then do
    let e ← isEmptyList h target
    require e
  else do
    require (isInAList h this)
    require (h.live target && !h.sent target)

/-- `ReplaceWith`, ilist_node.h:213-248. -/
def replaceWith (h : Heap) (this target : Nat) : Option Heap := do
  require (h.live this)
  replaceAsserts h this target
  let e ← isEmptyList h this
  if !e then do
    let h1 ← takePlace this target h
    resetSelf this h1
  else some h

/-- `operator=(const IntrusiveNodeBase&)`, ilist_node.h:122-129. -/
def copyAssignNode (h : Heap) (a : Nat) : Option Heap := do
  require (h.live a && !h.sent a)
  detach h a

/-- `operator=(IntrusiveNodeBase&& that)`, ilist_node.h:149-153. -/
def moveAssignNode (h : Heap) (a that : Nat) : Option Heap := replaceWith h that a

/-- `IntrusiveNodeBase(IntrusiveNodeBase&& that)` for a `that` which is not a sentinel,
ilist_node.h:132-141. -/
def newNodeMove (h : Heap) (a that : Nat) : Option Heap := do
  require (h.live that && !h.sent that)
  let h1 ← newNode h a
  replaceWith h1 that a

/-- `IntrusiveList(IntrusiveList&&)`, ilist.h:216-221. -/
def newListMove (h : Heap) (l that : Nat) : Option Heap := do
  let h1 ← newList h l
  replaceWith h1 that l

/-- `operator=(IntrusiveList&&)`, ilist.h:229-233. -/
def moveAssignList (h : Heap) (l that : Nat) : Option Heap := replaceWith h that l

/-- `push_back`, ilist.h:272-274. -/
def pushBack (h : Heap) (l n : Nat) : Option Heap := insertBefore h n l

/-- `empty`, ilist.h:277-279. -/
def isEmpty (h : Heap) (l : Nat) : Option Bool := do
  let n ← nextNode h l
  some n.isNone

/-- `front`, ilist.h:289-293. -/
def front (h : Heap) (l : Nat) : Option Nat := do
  let n ← nextNode h l
  n

/-- `back`, ilist.h:296-300. -/
def back (h : Heap) (l : Nat) : Option Nat := do
  let n ← previousNode h l
  n

/-- `clear`, ilist.h:282-286.  Non-termination would also be `none`. -/
def clear (l : Nat) (h : Heap) : Option Heap := do
  let e ← isEmpty h l
  if e then some h
  else do
    let n ← front h l
    let h' ← removeFromList h n
    clear l h'
partial_fixpoint

/-- `~IntrusiveList`, ilist.h:224-226, and of its sentinel. -/
def deleteList (h : Heap) (l : Nat) : Option Heap := do
  require (h.sent l)
  let h' ← clear l h
  some { h' with live := upd h'.live l false }

/-- Lines 110-120 of `MoveBefore`. -/
def moveBeforeCore (h : Heap) (pos l : Nat) : Option Heap := do
  let first := h.next l
  let last := h.prev l
  require (h.live pos)
  let h1 ← setNext h (h.prev pos) first
  let h2 ← setPrev h1 first (h1.prev pos)
  let h3 ← setNext h2 last (some pos)
  let h4 ← setPrev h3 (some pos) last
  let h5 ← setNext h4 (some l) (some l)
  setPrev h5 (some l) (some l)

/-- `iterator_template::MoveBefore`, ilist.h:107-124; the result is the returned iterator. -/
def moveBefore (h : Heap) (pos l : Nat) : Option (Heap × Option Nat) := do
  let e ← isEmpty h l
  if e then some (h, some pos)
  else do
    let h' ← moveBeforeCore h pos l
    some (h', h.next l)

/-- Lines 323-338 of `Splice`. -/
def spliceCore (h : Heap) (wher first last : Nat) : Option Heap := do
  require (h.live wher && h.live first && h.live last)
  let firstPrev := h.prev first
  let whereNext := h.next wher
  let h1 ← setNext h (some wher) (some first)
  let h2 ← setPrev h1 (some first) (some wher)
  let h3 ← setPrev h2 whereNext (h2.prev last)
  let h4 ← setNext h3 (h3.prev last) whereNext
  let h5 ← setNext h4 firstPrev (some last)
  setPrev h5 (some last) firstPrev

/-- `Splice`, ilist.h:317-339. -/
def splice (h : Heap) (l wher other first last : Nat) : Option Heap :=
  if first = last then some h
  else if other = l then some h
  else spliceCore h wher first last

/-- `for (it = begin(); it != end(); ++it)`, the visited nodes; ilist.h:78-81 and 235-246. -/
def walkFrom (h : Heap) (l : Nat) (p : Option Nat) : Option (List Nat) := do
  let a ← deref h p
  if a = l then some []
  else do
    let r ← walkFrom h l (h.next a)
    some (a :: r)
partial_fixpoint

def forward (h : Heap) (l : Nat) : Option (List Nat) := do
  require (h.live l)
  walkFrom h l (h.next l)

/-- The same with `--it` from `end()`, ilist.h:83-86. -/
def walkBack (h : Heap) (l : Nat) (p : Option Nat) : Option (List Nat) := do
  let a ← deref h p
  if a = l then some []
  else do
    let r ← walkBack h l (h.prev a)
    some (a :: r)
partial_fixpoint

def backward (h : Heap) (l : Nat) : Option (List Nat) := do
  require (h.live l)
  walkBack h l (h.prev l)

end Verif.IList
