import Verif.Layout.Spec

set_option linter.unusedSimpArgs false
set_option linter.unusedVariables false

/-!
# The reachable configurations of the layout check
-/
namespace Verif.Layout

/-- Configurations of the check: in prologue section `n`; in the types section; among
declarations outside/inside a function; among definitions outside a function, before its
first block, in a block, after a block; among graphs in some region; among graphs with an
unfinished function. -/
inductive Cfg where
  | pre (n : Nat)
  | types
  | decl0 | decl1
  | def0 | def1 | def2 | def3
  | graph (r : Nat)
  | doomed (r : Nat)
  deriving DecidableEq

def preSection : Op → Option Nat
  | .capability => some 0
  | .extension => some 1
  | .extInstImport => some 2
  | .memoryModel => some 3
  | .samplerImageAddressingMode => some 4
  | .entryPoint => some 5
  | .executionMode => some 6
  | .source => some 7
  | .name => some 8
  | .moduleProcessed => some 9
  | .annotation => some 10
  | _ => none

def isLocal (e : Ext) : Bool := e.debugInfo && e.localInfo
def isGlobal (e : Ext) : Bool := e.debugInfo && !e.localInfo
def isNonSem (e : Ext) : Bool := !e.debugInfo && e.nonSemantic
def isPlainNonSem (e : Ext) : Bool := !e.forwardRefs && e.nonSemantic

/-- Leaving towards graphs with no function open. -/
def toGraph : Op → Option Cfg
  | .graphEntryPoint => some (.graph 0)
  | .graph => some (.graph 1)
  | _ => none

/-- Leaving towards graphs with a function open. -/
def toDoomed : Op → Option Cfg
  | .graphEntryPoint => some (.doomed 0)
  | .graph => some (.doomed 1)
  | _ => none

def graphStep (r : Nat) : Op → Option Nat
  | .graph => if r = 0 then some 1 else none
  | .graphInput => if r = 1 ∨ r = 2 then some 2 else none
  | .graphSetOutput => if r = 0 then none else some 4
  | .graphEnd => if r = 4 then some 0 else none
  | .graphEntryPoint => if r = 0 then some 0 else none
  | .ext e => if isPlainNonSem e then some r else if r = 0 ∨ r = 4 then none else some 3
  | .compositeExtract => if r = 0 ∨ r = 4 then none else some 3
  | _ => none

def afterTypes : Op → Option Cfg
  | .function => some .decl1
  | op => toGraph op

def def0Step : Op → Option Cfg
  | .function => some .def1
  | .line => some .def0
  | .ext e => if isNonSem e then some .def0 else none
  | op => toGraph op

def astep : Cfg → Op → Option Cfg
  | .pre n, op =>
    match preSection op with
    | some k =>
      if k < n then none
      else if n < 3 ∧ 3 < k then none
      else if n = 3 ∧ k = 3 then none
      else some (.pre k)
    | none =>
      if n < 3 then none
      else match op with
        | .typ | .var | .undef | .line => some .types
        | op => afterTypes op
  | .types, op =>
    match op with
    | .typ | .var | .undef | .line => some .types
    | .ext e => if isGlobal e || isNonSem e then some .types else none
    | op => afterTypes op
  | .decl0, op =>
    match op with
    | .function => some .decl1
    | .line => some .def0
    | .ext e => if isNonSem e then some .def0 else none
    | op => toGraph op
  | .decl1, op =>
    match op with
    | .functionParameter => some .decl1
    | .functionEnd => some .decl0
    | .line => some .def1
    | .label => some .def2
    | .ext e => if isLocal e then some .def1 else none
    | op => toDoomed op
  | .def0, op => def0Step op
  | .def1, op =>
    match op with
    | .functionParameter => some .def1
    | .line => some .def1
    | .label => some .def2
    | .ext e => if isLocal e then some .def1 else none
    | op => toDoomed op
  | .def2, op =>
    match op with
    | .other | .var | .undef | .line | .compositeExtract => some .def2
    | .terminator => some .def3
    | .ext e => if isGlobal e then none else some .def2
    | op => toDoomed op
  | .def3, op =>
    match op with
    | .functionEnd => some .def0
    | .line => some .def3
    | .label => some .def2
    | .ext e => if isLocal e then some .def3 else none
    | op => toDoomed op
  | .graph r, op => (graphStep r op).map .graph
  | .doomed r, op => (graphStep r op).map .doomed

/-- What is left in `module_functions_.back()` outside functions. -/
def stale : List (Option Fn) :=
  [none, some ⟨.declaration, false, false⟩, some ⟨.definition, true, false⟩]

/-- The states of a configuration. -/
def states : Cfg → List State
  | .pre n => [⟨n, false, none, 0, decide (3 ≤ n)⟩]
  | .types => [⟨11, false, none, 0, true⟩]
  | .decl0 => [⟨12, false, some ⟨.declaration, false, false⟩, 0, true⟩]
  | .decl1 => [⟨12, true, some ⟨.unknown, false, false⟩, 0, true⟩]
  | .def0 => stale.map fun f => ⟨13, false, f, 0, true⟩
  | .def1 => [⟨13, true, some ⟨.definition, false, false⟩, 0, true⟩]
  | .def2 => [⟨13, true, some ⟨.definition, true, true⟩, 0, true⟩]
  | .def3 => [⟨13, true, some ⟨.definition, true, false⟩, 0, true⟩]
  | .graph r => stale.map fun f => ⟨14, false, f, r, true⟩
  | .doomed r => [false, true].flatMap fun b => [false, true].map fun b' =>
      ⟨14, true, some ⟨.definition, b, b'⟩, r, true⟩

def cfgs : List Cfg :=
  (List.range 11).map .pre ++ [.types, .decl0, .decl1, .def0, .def1, .def2, .def3] ++
  (List.range 5).map .graph ++ (List.range 5).map .doomed

def bools : List Bool := [false, true]

def exts : List Ext :=
  bools.flatMap fun a => bools.flatMap fun b => bools.flatMap fun c => bools.map fun d => ⟨a, b, c, d⟩

def ops : List Op :=
  [.capability, .extension, .extInstImport, .memoryModel, .samplerImageAddressingMode,
   .entryPoint, .executionMode, .source, .name, .moduleProcessed, .annotation,
   .typ, .var, .undef, .line, .function, .functionParameter, .functionEnd, .label, .terminator,
   .compositeExtract, .graphEntryPoint, .graph, .graphInput, .graphSetOutput, .graphEnd, .other]
  ++ exts.map .ext

theorem mem_bools (b : Bool) : b ∈ bools := by cases b <;> decide

theorem mem_exts (e : Ext) : e ∈ exts := by
  obtain ⟨a, b, c, d⟩ := e
  simp only [exts, List.mem_flatMap, List.mem_map]
  exact ⟨a, mem_bools a, b, mem_bools b, c, mem_bools c, d, mem_bools d, rfl⟩

theorem mem_ops (op : Op) : op ∈ ops := by
  cases op <;> first | decide | exact List.mem_append_right _ (List.mem_map.mpr ⟨_, mem_exts _, rfl⟩)

def agrees (s : State) (op : Op) : Option Cfg → Bool
  | none => decide (step s op = .error)
  | some c => cfgs.contains c && (states c).any fun s' => decide (step s op = .ok s')

theorem table :
    (cfgs.all fun c => (states c).all fun s => ops.all fun op => agrees s op (astep c op)) = true := by
  decide +kernel

theorem simulates {c : Cfg} (hc : c ∈ cfgs) {s : State} (hs : s ∈ states c) (op : Op) :
    (astep c op = none ∧ step s op = .error) ∨
    ∃ c' s', astep c op = some c' ∧ c' ∈ cfgs ∧ s' ∈ states c' ∧ step s op = .ok s' := by
  have h := table
  rw [List.all_eq_true] at h
  have h := h c hc
  rw [List.all_eq_true] at h
  have h := h s hs
  rw [List.all_eq_true] at h
  have h := h op (mem_ops op)
  cases ha : astep c op with
  | none => rw [ha] at h; exact .inl ⟨rfl, of_decide_eq_true h⟩
  | some c' =>
    rw [ha] at h
    simp only [agrees, Bool.and_eq_true, List.any_eq_true, decide_eq_true_eq,
      List.contains_iff_mem] at h
    obtain ⟨h1, s', h2, h3⟩ := h
    exact .inr ⟨c', s', rfl, h1, h2, h3⟩

/-- Configurations accepting the end of the module. -/
def final : Cfg → Bool
  | .pre n => decide (3 ≤ n)
  | .types | .decl0 | .def0 => true
  | .graph r => decide (r = 0)
  | _ => false

def arun : Cfg → List Op → Bool
  | c, [] => final c
  | c, op :: rest => match astep c op with
    | none => false
    | some c' => arun c' rest

theorem final_table :
    (cfgs.all fun c => (states c).all fun s =>
      decide (run s [] = if final c then .ok s else .error)) = true := by
  decide +kernel

theorem run_eq : ∀ (m : List Op) {c : Cfg} (_ : c ∈ cfgs) {s : State} (_ : s ∈ states c),
    (arun c m = true → ∃ s', run s m = .ok s') ∧ (arun c m = false → run s m = .error)
  | [], c, hc, s, hs => by
    have h := final_table
    rw [List.all_eq_true] at h
    have h := h c hc
    rw [List.all_eq_true] at h
    have h := of_decide_eq_true (h s hs)
    refine ⟨fun hf => ?_, fun hf => ?_⟩
    · rw [show final c = true from hf, if_pos rfl] at h; exact ⟨s, h⟩
    · rw [show final c = false from hf, if_neg (by decide)] at h; exact h
  | op :: rest, c, hc, s, hs => by
    rcases simulates hc hs op with ⟨h1, h2⟩ | ⟨c', s', h1, h2, h3, h4⟩
    · simp only [arun, h1, run, h2]; simp
    · have := run_eq rest h2 h3
      simp only [arun, h1, run, h4]
      exact this

theorem accepts_eq (m : List Op) : accepts m = arun (.pre 0) m := by
  obtain ⟨h1, h2⟩ := run_eq m (c := .pre 0) (by decide) (s := initial) (by decide)
  unfold accepts
  cases h : arun (.pre 0) m
  · rw [h2 h]
  · obtain ⟨s', hs⟩ := h1 h
    rw [hs]

theorem run_no_fault (m : List Op) : run initial m ≠ .fault := by
  obtain ⟨h1, h2⟩ := run_eq m (c := .pre 0) (by decide) (s := initial) (by decide)
  cases h : arun (.pre 0) m
  · rw [h2 h]; intro h; cases h
  · obtain ⟨s', hs⟩ := h1 h
    rw [hs]; intro h; cases h

end Verif.Layout
