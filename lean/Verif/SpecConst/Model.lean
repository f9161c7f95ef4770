import Verif.ParseNumber.Model
/-
Model of `source/opt/set_spec_constant_default_value_pass.cpp`: the flag text
parser, the conversion of a text or bit pattern to the words of a constant, and
the pass itself.
-/
namespace Verif.SpecConst
open Verif.ParseNumber

abbrev Word := BitVec 32

/-- `IsSeparator` (set_spec_constant_default_value_pass.cpp:360-363).  The NUL
    which also counts is the end of the list here. -/
def isSeparator (c : Char) : Bool := c == ':' || isSpace c

/-- The map from spec id to value text.  `std::unordered_map`; modelled as the
    list of pairs in the order of insertion. -/
abbrev StrMap := List (Int × Text)

/-- One round of the loop of `ParseDefaultValuesString` (:376-410).  Returns the
    grown map and the remaining text. -/
def parseEntry (map : StrMap) (str : Text) : Option (StrMap × Text) :=
  let str := str.dropWhile isSpace
  let idText := str.takeWhile (fun c => !isSeparator c)
  let str := str.dropWhile (fun c => !isSeparator c)
  match parseNumber u32 idText with
  | none => none
  | some id =>
    if (map.lookup id).isSome then none
    else
      match str with
      | ':' :: str =>
        let val := str.takeWhile (fun c => !isSeparator c)
        let str := str.dropWhile (fun c => !isSeparator c)
        if val = [] then none
        else some (map ++ [(id, val)], str.dropWhile isSpace)
      | _ => none

theorem dropWhile_length_le (p : Char → Bool) (s : Text) : (s.dropWhile p).length ≤ s.length :=
  (List.dropWhile_sublist p).length_le

theorem parseEntry_length {map : StrMap} {str : Text} {m r} (h : parseEntry map str = some (m, r)) :
    r.length < str.length := by
  unfold parseEntry at h
  simp only at h
  split at h
  · cases h
  · split at h
    · cases h
    · split at h
      · rename_i rest heq
        split at h
        · cases h
        · cases h
          have h1 := dropWhile_length_le isSpace str
          have h2 := dropWhile_length_le (fun c => !isSeparator c) (str.dropWhile isSpace)
          rw [heq] at h2
          have h3 := dropWhile_length_le (fun c => !isSeparator c) rest
          have h4 := dropWhile_length_le isSpace (rest.dropWhile (fun c => !isSeparator c))
          simp only [List.length_cons] at h2
          omega
      · cases h

/-- The loop `while (*str)` (:376-413). -/
def parseLoop (map : StrMap) (str : Text) : Option StrMap :=
  if str = [] then some map
  else
    match h : parseEntry map str with
    | none => none
    | some (m, r) => parseLoop m r
termination_by str.length
decreasing_by exact parseEntry_length h

/-- `ParseDefaultValuesString` (:365-416); `none` is a null result.  A null
    argument gives a null result. -/
def parseDefaultValuesString (str : Option Text) : Option StrMap :=
  match str with
  | none => none
  | some str => parseLoop [] str

/-- The types the pass distinguishes (`AsBool`, `AsInteger`, `AsFloat`,
    `AsArray`). -/
inductive Ty where
  | bool
  | int (width : Nat) (signed : Bool)
  | float (width : Nat)
  | array
  | other
deriving DecidableEq

/-- `ParseAndEncodeNumber` (parse_number.cpp:294-317) for the integer and
    floating point types; the floating point half is a parameter. -/
def encodeNumber (encodeFloat : Text → Nat → Option (List Word)) (text : Text) :
    Ty → Option (List Word)
  | .int w signed =>
    match encodeInteger (some text) ⟨w, if signed then .signedInt else .unsignedInt⟩ with
    | (.success, ws) => some ws
    | _ => none
  | .float w => encodeFloat text w
  | _ => none

/-- `ParseDefaultValueStr` (:44-75). -/
def parseDefaultValueStr (encodeFloat : Text → Nat → Option (List Word)) (text : Text) (type : Ty) :
    List Word :=
  if text = "true".toList ∧ type = .bool then [1]
  else if text = "false".toList ∧ type = .bool then [0]
  else
    match type with
    | .int w s => (encodeNumber encodeFloat text (.int w s)).getD []
    | .float w => (encodeNumber encodeFloat text (.float w)).getD []
    | _ => []

/-- `ParseDefaultValueBitPattern` (:91-141).  `assert(width > 0)` is a
    precondition; `1u << width` is only evaluated for widths below 32. -/
def parseDefaultValueBitPattern (pattern : List Word) (type : Ty) : List Word :=
  match type with
  | .bool => if pattern.any (· != 0) then [1] else [0]
  | .int width signed =>
    if max 32 width = pattern.length * 32 then
      if width < 32 then
        match pattern with
        | [] => []
        | w0 :: rest =>
          let high : Word := (1#32 <<< width) >>> 1
          if signed && (high &&& w0) != 0 then (w0 ||| ~~~(high - 1)) :: rest
          else (w0 &&& ((1#32 <<< width) - 1)) :: rest
      else pattern
    else []
  | .float width =>
    if max 32 width = pattern.length * 32 then
      if width < 32 then
        match pattern with
        | [] => []
        | w0 :: rest => (w0 &&& ((1#32 <<< width) - 1)) :: rest
      else pattern
    else []
  | .array => pattern
  | .other => []

/-- The instructions the pass looks at.  `data` are the literal operands after
    type and result: the single literal of an `OpSpecConstant`, or the words of an
    `OpSpecConstantDataKHR`, one operand each. -/
inductive Op where
  | specConstant | specTrue | specFalse | specData | decorationGroup | other
deriving DecidableEq

structure Inst where
  op : Op
  /-- The type of the result, as the type manager returns it; `none` is a null
      pointer (the instruction has no type). -/
  type : Option Ty
  data : List Word
deriving DecidableEq

/-- An annotation instruction: `OpDecorate target SpecId n` with exactly three
    operands, or something else. -/
inductive Annotation where
  | specId (target : Nat) (spec : Nat)
  | other
deriving DecidableEq

/-- The part of a module the pass sees: annotations in order, definitions, and
    for each decoration group the target lists of the `OpGroupDecorate`
    instructions using it, in the order of the def-use manager. -/
structure Module where
  annotations : List Annotation
  defs : Nat → Option Inst
  groupTargets : Nat → List (List Nat)

/-- `CanHaveSpecIdDecoration` (:145-155). -/
def canHaveSpecId (i : Inst) : Bool :=
  i.op == .specConstant || i.op == .specFalse || i.op == .specTrue || i.op == .specData

/-- The scan over the targets of `OpGroupDecorate` (:186-220): the id of the
    instruction found so far. -/
def scanTargets (defs : Nat → Option Inst) : List Nat → Option Nat → Option Nat
  | [], found => found
  | t :: ts, found =>
    match defs t with
    | none => scanTargets defs ts found
    | some i =>
      match found with
      | none => if canHaveSpecId i then scanTargets defs ts (some t) else none
      | some f => if t = f then scanTargets defs ts (some f) else none

/-- `GetSpecIdTargetFromDecorationGroup` (:161-222). -/
def groupTarget (m : Module) (group : Nat) : Option Nat :=
  match m.groupTargets group with
  | [] => none
  | ts :: _ => scanTargets m.defs ts none

/-- Which instruction a `SpecId` decoration is about (:262-277). -/
def specTarget (m : Module) (target : Nat) : Option Nat :=
  match m.defs target with
  | none => none
  | some i => if i.op = .decorationGroup then groupTarget m target else some target

/-- The update of one instruction (:313-354): the new instruction and whether it
    was modified. -/
def update (i : Inst) (pattern : List Word) : Inst × Bool :=
  match i.op with
  | .specConstant => if i.data ≠ pattern then ({ i with data := pattern }, true) else (i, false)
  | .specTrue =>
    if pattern.head? = some 0 then ({ i with op := .specFalse }, true) else (i, false)
  | .specFalse =>
    if pattern.head? ≠ some 0 then ({ i with op := .specTrue }, true) else (i, false)
  | .specData =>
    -- only the first literal operand is compared with the whole pattern
    if i.data.take 1 ≠ pattern then ({ i with data := pattern }, true) else (i, false)
  | _ => (i, false)

/-- The two forms of the constructor's argument. -/
inductive Values where
  | str (map : StrMap)
  | bits (map : List (Int × List Word))

/-- The new value for one spec id and type (:280-309); the outer `none` is "no
    value given". -/
def newValue (encodeFloat : Text → Nat → Option (List Word)) (vs : Values) (spec : Nat)
    (type : Ty) : Option (List Word) :=
  match vs with
  | .str m => (m.lookup (spec : Int)).map (fun t => parseDefaultValueStr encodeFloat t type)
  | .bits m => (m.lookup (spec : Int)).map (fun p => parseDefaultValueBitPattern p type)

/-- Whether a value is given at all for a spec id. -/
def hasValue (vs : Values) (spec : Nat) : Bool :=
  match vs with
  | .str m => (m.lookup (spec : Int)).isSome
  | .bits m => (m.lookup (spec : Int)).isSome

/-- One annotation (:252-358).  `none` is a null pointer dereference: the
    instruction has no type. -/
def step (encodeFloat : Text → Nat → Option (List Word)) (vs : Values) (m : Module)
    (a : Annotation) : Option (Module × Bool) :=
  match a with
  | .other => some (m, false)
  | .specId target spec =>
    match specTarget m target with
    | none => some (m, false)
    | some id =>
      match m.defs id with
      | none => some (m, false)
      | some i =>
        if hasValue vs spec = false then some (m, false)
        else
          match i.type with
          | none => none
          | some ty =>
            match newValue encodeFloat vs spec ty with
            | none => some (m, false)
            | some pattern =>
              if pattern = [] then some (m, false)
              else
                let (i', changed) := update i pattern
                some ({ m with defs := fun x => if x = id then some i' else m.defs x }, changed)

/-- `SetSpecConstantDefaultValuePass::Process` (:225-362): the module afterwards
    and `modified`. -/
def run (encodeFloat : Text → Nat → Option (List Word)) (vs : Values) :
    List Annotation → Module → Bool → Option (Module × Bool)
  | [], m, modified => some (m, modified)
  | a :: as, m, modified =>
    match step encodeFloat vs m a with
    | none => none
    | some (m', changed) => run encodeFloat vs as m' (modified || changed)

def process (encodeFloat : Text → Nat → Option (List Word)) (vs : Values) (m : Module) :
    Option (Module × Bool) :=
  run encodeFloat vs m.annotations m false

end Verif.SpecConst
