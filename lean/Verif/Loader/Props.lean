import Verif.Loader.Exact
import Verif.Loader.Words
import Verif.Binary.Example

/-!
# C33: loading a module and emitting it again

`Spec.info` reads an instruction stream: each instruction with the source line and the debug
scope that apply to it.  `Spec.inLayout` puts these in the order of the logical layout, and
`Spec.written` leaves out what the caller of `ToBinary` asked to leave out.
-/
set_option linter.unusedSimpArgs false
namespace Verif.Loader
open Verif.StringLit (Word)
open Spec (Regular Emittable inLayout info written carriesDebug InOrder Info Eff Ctx)

/-- C33. The instructions of a loaded module, in the order of the lists of the module, are those
of the input in the order of the logical layout; each has the line and the scope that applied to
it in the input.  Partial: the conditions `Regular` are needed (see the findings below). -/
theorem load_partial {bound maxBound b : Word} {xs : List PInst} {m : Mod} (hr : Regular xs)
    (h : load bound maxBound true xs = some (m, b)) :
    (m.beforeGraphs ++ m.inGraphs).map infoOf = inLayout xs := by
  unfold load at h
  rw [Option.map_eq_some_iff] at h
  obtain ⟨s, hs, he⟩ := h
  cases he
  obtain ⟨e, hi, hfl⟩ := load_spec hr hs
  have hfn : s.fn = none := by
    have := hi.rel.inFn; rw [hr.complete.1] at this
    cases hh : s.fn with
    | none => rfl
    | some f => rw [hh] at this; cases this
  have hgr : s.gr = none := by
    have := hi.rel.inGraph; rw [hr.complete.2] at this
    cases hh : s.gr with
    | none => rfl
    | some f => rw [hh] at this; cases this
  have := segs_content hfn hgr
  unfold Mod.content at this
  rw [← this, ← flat_map_snd, hfl]; rfl

/-- C33. Emission of a module just loaded does not fault, and its output read again has the same
instructions with the same lines and scopes, in the order of the logical layout; only `OpNop`s
and repeated decorations are left out, if so asked.  Partial: the conditions `Regular` and
`Emittable` are needed (see the findings below). -/
theorem reload_partial {bound maxBound b b0 : Word} {xs : List PInst} {m : Mod} (c : Cfg) (hr : Regular xs)
    (he : Emittable c.cl100 xs) (h : load bound maxBound true xs = some (m, b)) :
    ∃ out b', emit c b0 m = some (out, b') ∧
      info Eff.none out = written c.skipNop c.filter [] (inLayout xs) := by
  unfold load at h
  rw [Option.map_eq_some_iff] at h
  obtain ⟨s, hs, hm⟩ := h
  cases hm
  exact (reload_aux hr c he hs).2

theorem written_all : ∀ (seen : List (List Word)) (l : List Info), written false false seen l = l
  | _, [] => rfl
  | seen, a :: l => by simp [Spec.written, written_all seen l]

/-- C33. For a module already in the order of the logical layout: nothing but the way of giving
lines and scopes changes. -/
theorem reload_inOrder_partial {bound maxBound b b0 : Word} {xs : List PInst} {m : Mod} (c : Cfg) (hr : Regular xs)
    (he : Emittable c.cl100 xs) (ho : InOrder xs) (hn : c.skipNop = false) (hf : c.filter = false)
    (h : load bound maxBound true xs = some (m, b)) :
    ∃ out b', emit c b0 m = some (out, b') ∧ info Eff.none out = info Eff.none xs := by
  obtain ⟨out, b', h1, h2⟩ := reload_partial (b0 := b0) c hr he h
  refine ⟨out, b', h1, ?_⟩
  rw [h2, hn, hf, written_all, inLayout_inOrder ho]

/-- C33. Without line and scope instructions, and in the order of the logical layout: emission
writes exactly the instructions loaded, and the id bound is the one of the input. -/
theorem reload_exact {bound maxBound b : Word} {xs : List PInst} {m : Mod} (c : Cfg) (hr : Regular xs)
    (hx : ∀ x ∈ xs, carriesDebug x = false) (ho : InOrder xs) (hn : c.skipNop = false) (hf : c.filter = false)
    (h : load bound maxBound true xs = some (m, b)) : emit c b m = some (xs, bound) := by
  unfold load at h
  rw [Option.map_eq_some_iff] at h
  obtain ⟨s, hs, hm⟩ := h
  cases hm
  obtain ⟨h1, h2⟩ := exact_aux (b0 := s.bound) hr c hx hs
  rw [h1, h2, hn, hf, written_all, inLayout_inOrder ho, info_plain xs _ hx rfl]
  rw [List.map_map, show ((fun x : Info => x.inst) ∘ fun x => (⟨x, none, noScope⟩ : Info)) = id from rfl, List.map_id]

/-- C33. The words of an instruction: splitting a parsed instruction into operands and joining
them again is the identity (if no operand is empty). -/
theorem words_kept (G : Binary.Grammar) (host : Binary.Endian) (maxVersion : Word) (ws : List Word)
    (eh : Option (Binary.Endian × Binary.Header)) (xs : List Binary.Inst)
    (h : Binary.Spec.observe G host maxVersion false ws = some ((eh, xs), 0)) :
    ∀ x ∈ xs, (∀ o ∈ x.operands, 0 < o.nwords) → toBinary x.opcode (irOperands x) = x.words := by
  intro x hx hpos
  obtain ⟨_, hall⟩ := Binary.parse_tiles G host maxVersion false ws eh xs h
  obtain ⟨⟨w, w1, w2, w3⟩, ht | ⟨hf, _⟩⟩ := hall x hx
  · obtain ⟨t1, t2⟩ := ht
    obtain ⟨f1, f2⟩ := tiles_flatten x.words x.operands 1 t1
    have hops : (irOperands x).flatten = x.words.drop 1 := by
      unfold irOperands
      rw [t2 hpos, List.take_length, f1]
    cases hw : x.words with
    | nil => rw [hw] at f2; simp at f2
    | cons w' rest =>
      rw [hw] at w1 w2 hops
      simp only [List.head?_cons, Option.some.injEq] at w1
      subst w1
      unfold toBinary
      simp only [hops, List.drop_succ_cons, List.drop_zero]
      have hlt := w'.isLt
      simp only [List.length_cons] at w2
      rw [if_neg (by omega)]
      rw [first_word (w := w') (by omega) w3]
  · cases hf

/-! ## Concrete modules -/

namespace Example

def cap : PInst := ⟨.capability, [0x20011, 1]⟩
def imp : PInst := ⟨.extInstImport, [0x2000b, 2]⟩
def mm : PInst := ⟨.memoryModel, [0x3000e, 0, 1]⟩
def dec : PInst := ⟨.annotation true, [0x30047, 8, 0]⟩
def void : PInst := ⟨.type, [0x20013, 3]⟩
def fnTy : PInst := ⟨.type, [0x30021, 4, 3]⟩
def dbg (s : ExtSet) : PInst := ⟨.ext false s .other, [0x5000c, 3, 5, 2, 35]⟩
def fn : PInst := ⟨.function, [0x50036, 3, 6, 0, 4]⟩
def lab : PInst := ⟨.label, [0x200f8, 7]⟩
def var : PInst := ⟨.variable, [0x4003b, 4, 8, 7]⟩
def line (n : Word) : PInst := ⟨.line, [0x40008, 5, n, 1]⟩
def scope (s : ExtSet) (n : Word) : PInst := ⟨.ext false s .scope, [0x6000c, 3, 20, 2, 23, n]⟩
def store (n : Word) : PInst := ⟨.other, [0x3003e, 8, n]⟩
def merge : PInst := ⟨.merge, [0x300f7, 9, 0]⟩
def br : PInst := ⟨.terminator, [0x400fa, 9, 10, 11]⟩
def ret : PInst := ⟨.terminator, [0x100fd]⟩
def fnEnd : PInst := ⟨.functionEnd, [0x10038]⟩

/-- A function with lines and scopes (OpenCL debug info), with the debug instruction in front of
the types, where the emission puts it after them. -/
def xs : List PInst :=
  [cap, imp, mm, dec, dbg .clDebug100, void, fnTy, fn, lab, scope .clDebug100 12, line 1, var, store 13, line 2,
   scope .clDebug100 14, store 15, merge, br, ⟨.label, [0x200f8, 9]⟩, line 3, store 13, ret, fnEnd]

theorem xs_regular : Regular xs where
  scopes := by decide
  debug := by
    intro p hp f k ho _ _
    revert p
    simp [xs, Spec.contexts, cap, imp, mm, dec, dbg, void, fnTy, fn, lab, var, line, scope, store, merge, br, ret, fnEnd]
  graphs := by decide
  functions := by decide
  memoryModel := by decide
  sampler := by decide
  merges := by
    simp [Spec.mergesOk, xs, cap, imp, mm, dec, dbg, void, fnTy, fn, lab, var, line, scope, store, merge, br, ret, fnEnd]
  complete := by decide

theorem xs_emittable : Emittable true xs where
  lines := by decide
  graphs := by
    rintro ⟨x, hx, ho⟩
    revert x
    decide
  debug := by
    intro _
    exact ⟨(Ctx.start, dbg .clDebug100), by decide, rfl, rfl, by decide, false, .clDebug100, .other, rfl, by decide⟩
  opens := .inl rfl

def cfg : Cfg := ⟨false, false, 0, true, 3, 1000, none⟩

/-- The hypotheses are met, and the output differs from the input. -/
example : ∃ m b, load 50 1000 true xs = some (m, b) ∧ ∃ out b', emit cfg b m = some (out, b') ∧
    info Eff.none out = inLayout xs ∧ out ≠ xs := by
  obtain ⟨m, b, h⟩ : ∃ m b, load 50 1000 true xs = some (m, b) := ⟨_, _, rfl⟩
  obtain ⟨out, b', h1, h2⟩ := reload_partial (b0 := b) cfg xs_regular xs_emittable h
  refine ⟨m, b, h, out, b', h1, by rw [h2]; exact written_all _ _, ?_⟩
  intro hh
  rw [hh] at h2
  revert h2
  decide

/-- Without debug info. -/
def ys : List PInst := [cap, imp, mm, dec, void, fnTy, fn, lab, var, store 13, merge, br, ⟨.label, [0x200f8, 9]⟩, ret, fnEnd]

theorem ys_regular : Regular ys where
  scopes := by decide
  debug := by
    intro p hp f k ho _ _
    revert p
    simp [ys, Spec.contexts, cap, imp, mm, dec, dbg, void, fnTy, fn, lab, var, line, scope, store, merge, br, ret, fnEnd]
  graphs := by decide
  functions := by decide
  memoryModel := by decide
  sampler := by decide
  merges := by
    simp [Spec.mergesOk, ys, cap, imp, mm, dec, dbg, void, fnTy, fn, lab, var, line, scope, store, merge, br, ret, fnEnd]
  complete := by decide

example : ∃ m, load 50 1000 true ys = some (m, 50) ∧ emit cfg 50 m = some (ys, 50) := by
  obtain ⟨m, h⟩ : ∃ m, load 50 1000 true ys = some (m, 50) := ⟨_, rfl⟩
  exact ⟨m, h, reload_exact cfg ys_regular (by decide) (by unfold InOrder; decide) rfl rfl h⟩

/-- A module in the order of the logical layout with lines (and no scopes). -/
def zs : List PInst := [cap, imp, mm, line 1, void, fnTy, fn, lab, line 2, store 13, store 14, merge, br,
  ⟨.label, [0x200f8, 9]⟩, ⟨.noLine, [0x1013d]⟩, store 15, ret, fnEnd]

theorem zs_regular : Regular zs where
  scopes := by decide
  debug := by
    intro p hp f k ho _ _
    revert p
    simp [zs, Spec.contexts, cap, imp, mm, dec, dbg, void, fnTy, fn, lab, var, line, scope, store, merge, br, ret, fnEnd]
  graphs := by decide
  functions := by decide
  memoryModel := by decide
  sampler := by decide
  merges := by
    simp [Spec.mergesOk, zs, cap, imp, mm, dec, dbg, void, fnTy, fn, lab, var, line, scope, store, merge, br, ret, fnEnd]
  complete := by decide

theorem zs_emittable : Emittable false zs where
  lines := by decide
  graphs := by
    rintro ⟨x, hx, ho⟩
    revert x
    decide
  debug := by
    rintro ⟨x, hx, ho⟩
    have : ∀ x ∈ zs, x.isScope = false := by decide
    rw [this x hx] at ho; cases ho
  opens := .inr (.inl (by decide))

example : ∃ m b, load 50 1000 true zs = some (m, b) ∧ ∃ out b', emit { cfg with cl100 := false } b m = some (out, b') ∧
    info Eff.none out = info Eff.none zs := by
  obtain ⟨m, b, h⟩ : ∃ m b, load 50 1000 true zs = some (m, b) := ⟨_, _, rfl⟩
  obtain ⟨out, b', h1, h2⟩ := reload_inOrder_partial (b0 := b) { cfg with cl100 := false } zs_regular zs_emittable
    (by unfold InOrder; decide) rfl rfl h
  exact ⟨m, b, h, out, b', h1, h2⟩

/-! ## Findings: where the property fails -/

/-- The output of emission after loading. -/
def reload (track : Bool) (c : Cfg) (xs : List PInst) : Option (List PInst) :=
  match load 50 1000 track xs with
  | none => none
  | some r => (emit c r.2 r.1).map (·.1)

def wrap (b : List PInst) : List PInst := [fn, lab] ++ b ++ [ret, fnEnd]

/-- Without extra line tracking, an `OpLine` applies to one instruction only: an `OpNoLine`
appears that was not in the input. -/
theorem no_tracking_adds_noLine :
    reload false cfg (wrap [line 1, store 13, store 14]) =
      some (wrap [line 1, store 13, ⟨.noLine, [0x1013d]⟩, store 14]) := by decide

/-- A debug instruction of the shader set in a function outside a block disappears. -/
theorem debug_dropped :
    reload true cfg [fn, ⟨.ext false .shaderDebug .functionDefinition, [0x7000c, 3, 20, 2, 101, 21, 6]⟩, lab, ret, fnEnd] =
      some [fn, lab, ret, fnEnd] := by decide

/-- A merge instruction and its branch lose their scope. -/
theorem merge_loses_scope :
    reload true cfg ([dbg .clDebug100] ++ [fn, lab, scope .clDebug100 12, store 13, merge, br, fnEnd]) =
      some ([dbg .clDebug100] ++ [fn, lab, scope .clDebug100 50 |> fun x => ⟨x.op, [0x6000c, 3, 50, 2, 23, 12]⟩, store 13,
        ⟨.ext false .clDebug100 .noScope, [0x5000c, 3, 51, 2, 24]⟩, merge, br, fnEnd]) := by decide

/-- With the shader set, a scope set before a variable is lost for the whole block, and so is one
followed by an `OpLine`.  Its end is written nevertheless, after the block (outside blocks). -/
theorem scope_before_variable_lost :
    reload true { cfg with cl100 := false } ([dbg .shaderDebug] ++ wrap [scope .shaderDebug 12, var, store 13]) =
      some ([dbg .shaderDebug] ++ [fn, lab, var, store 13, ret,
        ⟨.ext false .shaderDebug .noScope, [0x5000c, 3, 50, 2, 24]⟩, fnEnd]) ∧
    reload true { cfg with cl100 := false } ([dbg .shaderDebug] ++ wrap [scope .shaderDebug 12, line 1, store 13]) =
      some ([dbg .shaderDebug] ++ [fn, lab, line 1, store 13, ret,
        ⟨.ext false .shaderDebug .noScope, [0x5000c, 3, 50, 2, 24]⟩, fnEnd]) := by
  decide

/-- Line instructions in a graph disappear. -/
theorem graph_lines_lost :
    reload true cfg [⟨.graph, [0x3146d, 3, 4]⟩, line 1, ⟨.graphInput, [0x4146e, 3, 5, 6]⟩, ⟨.graphEnd, [0x11470]⟩] =
      some [⟨.graph, [0x3146d, 3, 4]⟩, ⟨.graphInput, [0x4146e, 3, 5, 6]⟩, ⟨.graphEnd, [0x11470]⟩] := by decide

/-- A graph that is not ended disappears. -/
theorem open_graph_lost : reload true cfg [⟨.graph, [0x3146d, 3, 4]⟩] = some [] := by decide

/-- An unfinished function is kept (this the parser accepts). -/
theorem open_function_kept : reload true cfg [fn, lab, store 13] = some [fn, lab, store 13] := by decide

/-- Of two memory models the second is kept. -/
theorem second_memory_model : reload true cfg [mm, ⟨.memoryModel, [0x3000e, 2, 2]⟩] = some [⟨.memoryModel, [0x3000e, 2, 2]⟩] := by
  decide

/-- A module with scopes but no other debug instruction outside functions is accepted, and its
emission reads the first element of an empty list. -/
theorem scope_without_debug_faults :
    (∃ r, load 50 1000 true (wrap [scope .clDebug100 12, store 13]) = some r ∧ emit cfg r.2 r.1 = none) := by
  refine ⟨_, rfl, ?_⟩
  decide

/-- Debug instructions in front of types are moved after them. -/
theorem debug_moved :
    reload true cfg [dbg .clDebug100, void] = some [void, dbg .clDebug100] := by decide

/-- Words of an instruction of a parsed module. -/
example : ∃ x : Binary.Inst, (∀ o ∈ x.operands, 0 < o.nwords) ∧ x.operands.length = 2 ∧
    toBinary x.opcode (irOperands x) = x.words := by
  refine ⟨⟨[0x40005, 3, 0x61, 0], 5, 0, 0, 0, [⟨1, 1, .ID, .none, 0, 0⟩, ⟨2, 2, .LITERAL_STRING, .none, 0, 0⟩], 2⟩, by decide, rfl, by decide⟩

end Example
end Verif.Loader
