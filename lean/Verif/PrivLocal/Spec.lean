import Verif.PrivLocal.Model
/-!
# Runs of a module

A module is run from one of its functions. A state is a stack of function activations, the memory and what has
been emitted. Activations are numbered in the order in which they start; a local variable is a cell of its
activation. Nothing here looks at what the pass does.
-/
namespace Verif.PrivLocal.Spec
open Verif.PrivLocal

/-- A cell of memory: a variable of the module, or a variable of an activation. -/
inductive Cell where
  | glob (v : Id)
  | loc (k : Nat) (v : Id)
  deriving DecidableEq

/-- A value: data, or the address of a part of a variable. -/
inductive Val (D : Type) where
  | data (d : D)
  | ptr (c : Cell) (path : List D)
  deriving DecidableEq

/-- What data, constants and operations are. `junk` is what a variable without initializer holds at first. -/
structure Sem (D : Type) where
  const : Id → Option D
  op : Nat → List D → D
  get : D → List D → D
  set : D → List D → D → D
  texel : D → D
  truth : D → Bool
  junk : Id → D

structure Frame (D : Type) where
  fn : Id
  num : Nat
  label : Id
  todo : List Inst
  regs : Id → Option (Val D)
  /-- where the caller wants the result -/
  dest : Id

structure State (D : Type) where
  frames : List (Frame D)
  mem : Cell → Option D
  emitted : List D
  /-- the functions in the order in which they were entered -/
  entered : List Id

variable {D : Type}

def Mod.fn (m : Mod) (f : Id) : Option Fn := m.fns.find? fun g => decide (g.id = f)

def Fn.block (f : Fn) (l : Id) : Option Block := f.blocks.find? fun b => decide (b.label = l)

/-- What an id stands for in an activation. -/
def value (S : Sem D) (m : Mod) (f : Frame D) (i : Id) : Option (Val D) :=
  if (Mod.fn m f.fn).any (fun g => g.locals.any fun v => decide (v.id = i)) then some (.ptr (.loc f.num i) [])
  else if m.globals.any (fun v => decide (v.id = i)) then some (.ptr (.glob i) [])
  else match S.const i with
    | some d => some (.data d)
    | none => f.regs i

def Val.getData : Val D → Option D
  | .data d => some d
  | .ptr _ _ => none

def Val.getPtr : Val D → Option (Cell × List D)
  | .data _ => none
  | .ptr c p => some (c, p)

def datum (S : Sem D) (m : Mod) (f : Frame D) (i : Id) : Option D := (value S m f i).bind Val.getData

def pointer (S : Sem D) (m : Mod) (f : Frame D) (i : Id) : Option (Cell × List D) :=
  (value S m f i).bind Val.getPtr

/-- What a variable holds at first. -/
def first (S : Sem D) (v : Var) : D :=
  match v.init with
  | none => S.junk v.id
  | some c => (S.const c).getD (S.junk v.id)

def setReg (f : Frame D) (r : Id) (x : Val D) : Frame D :=
  { f with regs := fun j => if j = r then some x else f.regs j }

def write (mem : Cell → Option D) (c : Cell) (d : D) : Cell → Option D :=
  fun e => if e = c then some d else mem e

/-- Start an activation of the function. -/
def enter (S : Sem D) (m : Mod) (f : Id) (args : List (Val D)) (dest : Id) (s : State D) : Option (State D) :=
  match Mod.fn m f with
  | none => none
  | some g =>
    match g.blocks with
    | [] => none
    | b :: _ => some
      { frames := { fn := f, num := s.entered.length, label := b.label, todo := b.body,
                    regs := fun i => (g.params.zip args).lookup i, dest := dest } :: s.frames
        mem := fun c => match c with
          | .loc k x =>
            if k = s.entered.length then
              match g.locals.find? fun v => decide (v.id = x) with
              | some v => some (first S v)
              | none => s.mem c
            else s.mem c
          | .glob _ => s.mem c
        emitted := s.emitted
        entered := s.entered ++ [f] }

/-- The value of the phi when the block is entered from `l`. -/
def phiValue (S : Sem D) (m : Mod) (f : Frame D) (l : Id) (p : Phi) : Option (Val D) :=
  (p.args.find? fun a => decide (a.2 = l)).bind fun a => value S m f a.1

/-- Go to another block: all phis take their values at once. -/
def jump (S : Sem D) (m : Mod) (f : Frame D) (l : Id) : Option (Frame D) :=
  match (Mod.fn m f.fn).bind fun g => Fn.block g l with
  | none => none
  | some b => some
    { f with
      label := l
      todo := b.body
      regs := fun i =>
        match b.phis.find? fun p => decide (p.r = i) with
        | some p => phiValue S m f f.label p
        | none => f.regs i }

/-- The address of a part. -/
def part (S : Sem D) (m : Mod) (f : Frame D) (b : Id) (ix : List Id) : Option (Val D) :=
  match pointer S m f b, ix.mapM (datum S m f) with
  | some (c, p), some ds => some (.ptr c (p ++ ds))
  | _, _ => none

def read (S : Sem D) (m : Mod) (f : Frame D) (mem : Cell → Option D) (p : Id) : Option D :=
  (pointer S m f p).bind fun a => (mem a.1).map fun d => S.get d a.2

def put (S : Sem D) (m : Mod) (f : Frame D) (mem : Cell → Option D) (p : Id) (d : D) : Option (Cell → Option D) :=
  (pointer S m f p).bind fun a => (mem a.1).map fun o => write mem a.1 (S.set o a.2 d)

/-- One instruction, in the activation `f` over the activations `fs`. -/
def exec (S : Sem D) (m : Mod) (s : State D) (f : Frame D) (fs : List (Frame D)) : Inst → Option (State D)
  | .load r p => (read S m f s.mem p).map fun d => { s with frames := setReg f r (.data d) :: fs }
  | .texel r p => (read S m f s.mem p).map fun d => { s with frames := setReg f r (.data (S.texel d)) :: fs }
  | .store p x => (datum S m f x).bind fun d => (put S m f s.mem p d).map fun mem =>
      { s with frames := f :: fs, mem := mem }
  | .chain r b ix => (part S m f b ix).map fun v => { s with frames := setReg f r v :: fs }
  | .inChain r b ix => (part S m f b ix).map fun v => { s with frames := setReg f r v :: fs }
  | .copy r x => (value S m f x).map fun v => { s with frames := setReg f r v :: fs }
  | .copyMem p q => (read S m f s.mem q).bind fun d => (put S m f s.mem p d).map fun mem =>
      { s with frames := f :: fs, mem := mem }
  | .call r g xs => (xs.mapM (value S m f)).bind fun vs => enter S m g vs r { s with frames := f :: fs }
  | .op r o xs => (xs.mapM (datum S m f)).map fun ds => { s with frames := setReg f r (.data (S.op o ds)) :: fs }
  | .emit x => (datum S m f x).map fun d => { s with frames := f :: fs, emitted := s.emitted ++ [d] }

/-- Give the result to the caller. -/
def leave (s : State D) (v : Option (Val D)) (dest : Id) : List (Frame D) → State D
  | [] => { s with frames := [] }
  | g :: gs => { s with frames := (match v with | some x => setReg g dest x | none => g) :: gs }

/-- One step; `none` if nothing is left to do or the behaviour is not defined. -/
def step (S : Sem D) (m : Mod) (s : State D) : Option (State D) :=
  match s.frames with
  | [] => none
  | f :: fs =>
    match f.todo with
    | i :: is => exec S m s { f with todo := is } fs i
    | [] =>
      match ((Mod.fn m f.fn).bind fun g => Fn.block g f.label).map Block.term with
      | none => none
      | some (.br l) => (jump S m f l).map fun g => { s with frames := g :: fs }
      | some (.cond x l k) => (datum S m f x).bind fun d =>
          (jump S m f (if S.truth d then l else k)).map fun g => { s with frames := g :: fs }
      | some (.ret none) => some (leave s none f.dest fs)
      | some (.ret (some x)) => (value S m f x).map fun v => leave s (some v) f.dest fs

/-- The state before the function `e` is entered. -/
def initial (S : Sem D) (m : Mod) : State D where
  frames := []
  mem c := match c with
    | .glob x => (m.globals.find? fun v => decide (v.id = x)).map (first S)
    | .loc _ _ => none
  emitted := []
  entered := []

/-- The state after `k` steps of a run of the entry point, if there are that many. -/
def after (S : Sem D) (m : Mod) (e : Id) : Nat → Option (State D)
  | 0 => enter S m e [] 0 (initial S m)
  | k + 1 => (after S m e k).bind (step S m)

/-- The run has come to its end. -/
def Finished (s : State D) : Prop := s.frames = []

/-- The function is not entered a second time, in any run of the entry point. -/
def Once (S : Sem D) (m : Mod) (e f : Id) : Prop := ∀ k s, after S m e k = some s → s.entered.count f ≤ 1

/-- Ids that an instruction defines. -/
def defs : Item → List Id
  | .inst (.load r _) => [r]
  | .inst (.texel r _) => [r]
  | .inst (.store _ _) => []
  | .inst (.chain r _ _) => [r]
  | .inst (.inChain r _ _) => [r]
  | .inst (.copy r _) => [r]
  | .inst (.copyMem _ _) => []
  | .inst (.call r _ _) => [r]
  | .inst (.op r _ _) => [r]
  | .inst (.emit _) => []
  | .phi p => [p.r]
  | .term _ => []
  | .var v => [v.id]

/-- All ids that are defined, one entry for each definition. -/
def Mod.allDefs (m : Mod) : List Id :=
  m.globals.map Var.id ++ m.fns.flatMap fun f => f.id :: f.params ++ f.items.flatMap defs

/-- What is asked of modules: ids are not 0 and are defined once, constants are not defined in the parts modelled here. -/
structure Valid (S : Sem D) (m : Mod) : Prop where
  zero : 0 ∉ Mod.allDefs m
  once : (Mod.allDefs m).Nodup
  const : ∀ i ∈ Mod.allDefs m, S.const i = none

/-- Storage classes fit together. -/
structure Typed (m : Mod) : Prop where
  globals : ∀ v ∈ m.globals, v.cls ≠ .function ∧ m.cls v.id = some v.cls
  locals : ∀ f ∈ m.fns, ∀ v ∈ f.locals, v.cls = .function ∧ m.cls v.id = some .function
  chain : ∀ f r b ix, (f, Item.inst (.chain r b ix)) ∈ m.items → m.cls r = m.cls b ∧ ∀ i ∈ ix, m.cls i = none
  inChain : ∀ f r b ix, (f, Item.inst (.inChain r b ix)) ∈ m.items → m.cls r = m.cls b
  copy : ∀ f r x, (f, Item.inst (.copy r x)) ∈ m.items → m.cls r = m.cls x

end Verif.PrivLocal.Spec
