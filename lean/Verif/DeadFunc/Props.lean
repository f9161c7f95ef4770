import Verif.DeadFunc.Model

/-!
# C47: a function survives exactly when it can be called from outside
-/
set_option linter.unusedSimpArgs false
set_option linter.unusedVariables false

namespace Verif.DeadFunc

namespace Spec

/-- Instructions of a function body with their operands named. -/
inductive Body where
  /-- OpFunctionCall: function, arguments -/
  | call (f : Id) (args : List Nat)
  /-- OpCooperativeMatrixPerElementOp: matrix, function, operands -/
  | perElement (matrix f : Id) (args : List Nat)
  /-- OpCooperativeMatrixReduce: matrix, kind, function -/
  | reduce (matrix kind f : Nat)
  /-- OpCooperativeMatrixLoadTensor: pointer, object, layout; alignment and scopes of the
  memory operands with the remaining mask bits; tensor view, decode functions -/
  | loadTensor (pointer object layout : Id) (volatile nontemporal : Bool)
      (aligned available visible : Option Nat) (view decode decodeVector : Option Id)
  /-- any other instruction -/
  | plain (ins : List Nat)

def bit (b : Bool) (n : Nat) : Nat := if b then 2 ^ n else 0

/-- The encoding of an instruction (SPIR-V specification). -/
def encode : Body → Inst
  | .call f args => ⟨.functionCall, f :: args⟩
  | .perElement m f args => ⟨.perElementOp, m :: f :: args⟩
  | .reduce m k f => ⟨.reduce, [m, k, f]⟩
  | .loadTensor p o l vol nt al av vi view dec decv =>
    ⟨.loadTensor, [p, o, l,
      bit vol 0 + bit al.isSome 1 + bit nt 2 + bit av.isSome 3 + bit vi.isSome 4] ++
      al.toList ++ av.toList ++ vi.toList ++
      [bit view.isSome 0 + bit dec.isSome 1 + bit decv.isSome 2] ++
      view.toList ++ dec.toList ++ decv.toList⟩
  | .plain ins => ⟨.other, ins⟩

/-- The functions an instruction calls. -/
def callees : Body → List Id
  | .call f _ => [f]
  | .perElement _ f _ => [f]
  | .reduce _ _ f => [f]
  | .loadTensor _ _ _ _ _ _ _ _ _ dec decv => dec.toList ++ decv.toList
  | .plain _ => []

/-- A module in terms of the specification: entry points (with the function), decorations
and functions. -/
structure Mod where
  /-- execution model, function, rest of the entry point -/
  entryPoints : List (Nat × Id × List Nat)
  /-- ids exported by OpDecorate ... LinkageAttributes (name) Export, with the name -/
  exports : List (Id × Nat)
  /-- all other annotations -/
  others : List Annotation
  funcs : List (Id × List Body)

/-- Annotations that do not export anything: not OpDecorate, or another decoration, or
another linkage type. -/
def Harmless (a : Annotation) : Prop :=
  a.isDecorate = true →
    ∃ t d rest, a.operands = t :: d :: rest ∧ (d = 41 → ∃ l, rest.getLast? = some l ∧ l ≠ 0)

def toModule (M : Mod) : Module :=
  { entryPoints := M.entryPoints.map fun e => e.1 :: e.2.1 :: e.2.2
    annotations := M.exports.map (fun e => ⟨true, [e.1, 41, e.2, 0]⟩) ++ M.others
    funcs := M.funcs.map fun f => ⟨f.1, f.2.map encode⟩ }

def Calls (M : Mod) (f g : Id) : Prop := ∃ body, (f, body) ∈ M.funcs ∧ ∃ i ∈ body, g ∈ callees i

def IsFunc (M : Mod) (f : Id) : Prop := ∃ body, (f, body) ∈ M.funcs

/-- Functions that can be called from outside the module. -/
inductive Live (M : Mod) : Id → Prop
  | entry {x f r} : (x, f, r) ∈ M.entryPoints → Live M f
  | exported {f n} : (f, n) ∈ M.exports → IsFunc M f → Live M f
  | call {f g} : Live M f → Calls M f g → Live M g

structure Good (M : Mod) : Prop where
  once : (M.funcs.map (·.1)).Nodup
  harmless : ∀ a ∈ M.others, Harmless a

end Spec

/-! ## reading the operands -/

theorem mem_bits : ∀ vol al nt av vi : Bool,
    (Spec.bit vol 0 + Spec.bit al 1 + Spec.bit nt 2 + Spec.bit av 3 + Spec.bit vi 4).testBit
      alignedBit = al ∧
    (Spec.bit vol 0 + Spec.bit al 1 + Spec.bit nt 2 + Spec.bit av 3 + Spec.bit vi 4).testBit
      availableBit = av ∧
    (Spec.bit vol 0 + Spec.bit al 1 + Spec.bit nt 2 + Spec.bit av 3 + Spec.bit vi 4).testBit
      visibleBit = vi := by decide

theorem tensor_bits : ∀ a b c : Bool,
    (Spec.bit a 0 + Spec.bit b 1 + Spec.bit c 2).testBit tensorViewBit = a ∧
    (Spec.bit a 0 + Spec.bit b 1 + Spec.bit c 2).testBit decodeFuncBit = b ∧
    (Spec.bit a 0 + Spec.bit b 1 + Spec.bit c 2).testBit decodeVectorFuncBit = c := by decide

theorem callsOf_encode (b : Spec.Body) : callsOf (Spec.encode b) = some (Spec.callees b) := by
  cases b with
  | call f args => rfl
  | perElement m f args => rfl
  | reduce m k f => rfl
  | plain ins => rfl
  | loadTensor p o l vol nt al av vi view dec decv =>
    have hm := mem_bits vol al.isSome nt av.isSome vi.isSome
    have ht := tensor_bits view.isSome dec.isSome decv.isSome
    unfold Spec.encode
    dsimp only
    generalize Spec.bit vol 0 + Spec.bit al.isSome 1 + Spec.bit nt 2 + Spec.bit av.isSome 3 +
      Spec.bit vi.isSome 4 = mask at hm ⊢
    generalize Spec.bit view.isSome 0 + Spec.bit dec.isSome 1 + Spec.bit decv.isSome 2 = tmask
      at ht ⊢
    obtain ⟨h1, h2, h3⟩ := hm
    obtain ⟨h4, h5, h6⟩ := ht
    cases al <;> cases av <;> cases vi <;> cases view <;> cases dec <;> cases decv <;>
      simp_all [callsOf, one, Spec.callees]

theorem addCalls_encode (bs : List Spec.Body) :
    addCalls (bs.map Spec.encode) = some (bs.flatMap Spec.callees) := by
  induction bs with
  | nil => rfl
  | cons b bs ih =>
    rw [List.map_cons, addCalls, callsOf_encode, ih, List.flatMap_cons]

/-! ## the traversal -/

section traversal
variable (m : Module)

def succs (f : Id) : Option (List Id) := (m.function f).bind fun fn => addCalls fn.body

/-- Reachable from the given ids through the calls the code sees. -/
inductive Reach (roots : List Id) : Id → Prop
  | root {f} : f ∈ roots → Reach roots f
  | step {f g cs} : Reach roots f → succs m f = some cs → g ∈ cs → Reach roots g

/-- Calls of the functions not yet done. -/
def pending (done : List Id) : Nat :=
  (m.funcs.map fun f => if f.id ∈ done then 0 else ((addCalls f.body).getD []).length).sum

theorem pending_add {f : Id} {fn : Func} {cs : List Id} (hf : m.function f = some fn)
    (hc : addCalls fn.body = some cs) {done : List Id} (hd : f ∉ done) :
    pending m (done ++ [f]) + cs.length ≤ pending m done := by
  unfold Module.function at hf
  unfold pending
  generalize m.funcs = fs at hf
  induction fs with
  | nil => simp at hf
  | cons x fs ih =>
    have mono : ∀ l : List Func,
        (l.map fun g => if g.id ∈ done ++ [f] then 0 else ((addCalls g.body).getD []).length).sum ≤
        (l.map fun g => if g.id ∈ done then 0 else ((addCalls g.body).getD []).length).sum := by
      intro l
      induction l with
      | nil => simp
      | cons y l ih =>
        simp only [List.map_cons, List.sum_cons]
        have : (if y.id ∈ done ++ [f] then 0 else ((addCalls y.body).getD []).length) ≤
            (if y.id ∈ done then 0 else ((addCalls y.body).getD []).length) := by
          by_cases h1 : y.id ∈ done
          · simp [h1]
          · by_cases h2 : y.id = f <;> simp [h1, h2]
        omega
    simp only [List.map_cons, List.sum_cons]
    by_cases hx : x.id = f
    · rw [List.find?_cons_of_pos (by simpa using hx)] at hf
      have hf' : x = fn := Option.some.inj hf
      rw [← hf'] at hc
      have := mono fs
      have h1 : (if x.id ∈ done ++ [f] then 0 else ((addCalls x.body).getD []).length) = 0 := by
        simp [hx]
      have h2 : (if x.id ∈ done then 0 else ((addCalls x.body).getD []).length) = cs.length := by
        rw [hx, if_neg hd, hc]; rfl
      rw [h1, h2]; omega
    · rw [List.find?_cons_of_neg (by simpa using hx)] at hf
      have := ih hf
      have : (if x.id ∈ done ++ [f] then 0 else ((addCalls x.body).getD []).length) =
          (if x.id ∈ done then 0 else ((addCalls x.body).getD []).length) := by
        simp [hx]
      omega

theorem callTree_spec (roots : List Id) (fuel : Nat) (queue done : List Id)
    (hfuel : queue.length + pending m done ≤ fuel)
    (hq : ∀ f ∈ queue, Reach m roots f)
    (hd : ∀ f ∈ done, Reach m roots f ∧ ∃ cs, succs m f = some cs ∧ ∀ g ∈ cs, g ∈ done ∨ g ∈ queue)
    (hr : ∀ f ∈ roots, f ∈ done ∨ f ∈ queue)
    (hok : ∀ f, Reach m roots f → ∃ cs, succs m f = some cs) :
    ∃ live, callTree m fuel queue done = some live ∧ ∀ f, f ∈ live ↔ Reach m roots f := by
  induction fuel generalizing queue done with
  | zero =>
    cases queue with
    | nil =>
      refine ⟨done, by simp [callTree], ?_⟩
      intro f
      constructor
      · exact fun h => (hd f h).1
      · intro h
        induction h with
        | root h => exact (hr _ h).resolve_right (by simp)
        | step h1 h2 h3 ih =>
          obtain ⟨_, cs, h4, h5⟩ := hd _ ih
          rw [h2] at h4; cases h4
          exact (h5 _ h3).resolve_right (by simp)
    | cons f q => simp at hfuel
  | succ fuel ih =>
    cases queue with
    | nil =>
      refine ⟨done, by simp [callTree], ?_⟩
      intro f
      constructor
      · exact fun h => (hd f h).1
      · intro h
        induction h with
        | root h => exact (hr _ h).resolve_right (by simp)
        | step h1 h2 h3 ih =>
          obtain ⟨_, cs, h4, h5⟩ := hd _ ih
          rw [h2] at h4; cases h4
          exact (h5 _ h3).resolve_right (by simp)
    | cons f q =>
      unfold callTree
      by_cases hf : f ∈ done
      · rw [if_pos hf]
        apply ih
        · simp only [List.length_cons] at hfuel; omega
        · exact fun g hg => hq g (List.mem_cons_of_mem _ hg)
        · intro g hg
          obtain ⟨h1, cs, h2, h3⟩ := hd g hg
          refine ⟨h1, cs, h2, fun x hx => ?_⟩
          rcases h3 x hx with h | h
          · exact Or.inl h
          · rcases List.mem_cons.mp h with h | h
            · exact Or.inl (h ▸ hf)
            · exact Or.inr h
        · intro g hg
          rcases hr g hg with h | h
          · exact Or.inl h
          · rcases List.mem_cons.mp h with h | h
            · exact Or.inl (h ▸ hf)
            · exact Or.inr h
      · rw [if_neg hf]
        have hrf := hq f List.mem_cons_self
        obtain ⟨cs, hcs⟩ := hok f hrf
        obtain ⟨fn, h1, h2⟩ := Option.bind_eq_some_iff.mp hcs
        rw [h1]
        dsimp only
        rw [h2]
        dsimp only
        have hp := pending_add m h1 h2 hf
        apply ih
        · simp only [List.length_cons] at hfuel
          rw [List.length_append]; omega
        · intro g hg
          rcases List.mem_append.mp hg with hg | hg
          · exact hq g (List.mem_cons_of_mem _ hg)
          · exact Reach.step hrf hcs hg
        · intro g hg
          rcases List.mem_append.mp hg with hg | hg
          · obtain ⟨h3, cs', h4, h5⟩ := hd g hg
            refine ⟨h3, cs', h4, fun x hx => ?_⟩
            rcases h5 x hx with h | h
            · exact Or.inl (List.mem_append_left _ h)
            · rcases List.mem_cons.mp h with h | h
              · exact Or.inl (by simp [h])
              · exact Or.inr (List.mem_append_left _ h)
          · simp only [List.mem_singleton] at hg
            subst hg
            exact ⟨hrf, cs, hcs, fun x hx => Or.inr (List.mem_append_right _ hx)⟩
        · intro g hg
          rcases hr g hg with h | h
          · exact Or.inl (List.mem_append_left _ h)
          · rcases List.mem_cons.mp h with h | h
            · exact Or.inl (by simp [h])
            · exact Or.inr (List.mem_append_left _ h)

/-- Where some reachable id is not a function, the traversal fails. -/
theorem callTree_fails (roots : List Id) (fuel : Nat) (queue done : List Id)
    (hd : ∀ f ∈ done, ∃ cs, succs m f = some cs ∧ ∀ g ∈ cs, g ∈ done ∨ g ∈ queue)
    (hr : ∀ f ∈ roots, f ∈ done ∨ f ∈ queue) {live : List Id}
    (h : callTree m fuel queue done = some live) :
    ∀ f, Reach m roots f → ∃ cs, succs m f = some cs := by
  induction fuel generalizing queue done with
  | zero =>
    cases queue with
    | nil =>
      intro f hf
      have : f ∈ done := by
        induction hf with
        | root h => exact (hr _ h).resolve_right (by simp)
        | step h1 h2 h3 ih =>
          obtain ⟨cs, h4, h5⟩ := hd _ ih
          rw [h2] at h4; cases h4
          exact (h5 _ h3).resolve_right (by simp)
      obtain ⟨cs, h1, _⟩ := hd f this
      exact ⟨cs, h1⟩
    | cons f q => simp [callTree] at h
  | succ fuel ih =>
    cases queue with
    | nil =>
      intro f hf
      have : f ∈ done := by
        induction hf with
        | root h => exact (hr _ h).resolve_right (by simp)
        | step h1 h2 h3 ih =>
          obtain ⟨cs, h4, h5⟩ := hd _ ih
          rw [h2] at h4; cases h4
          exact (h5 _ h3).resolve_right (by simp)
      obtain ⟨cs, h1, _⟩ := hd f this
      exact ⟨cs, h1⟩
    | cons f q =>
      unfold callTree at h
      by_cases hf : f ∈ done
      · rw [if_pos hf] at h
        refine ih q done ?_ ?_ h
        · intro g hg
          obtain ⟨cs, h2, h3⟩ := hd g hg
          refine ⟨cs, h2, fun x hx => ?_⟩
          rcases h3 x hx with h | h
          · exact Or.inl h
          · rcases List.mem_cons.mp h with h | h
            · exact Or.inl (h ▸ hf)
            · exact Or.inr h
        · intro g hg
          rcases hr g hg with h | h
          · exact Or.inl h
          · rcases List.mem_cons.mp h with h | h
            · exact Or.inl (h ▸ hf)
            · exact Or.inr h
      · rw [if_neg hf] at h
        cases h1 : m.function f with
        | none => rw [h1] at h; cases h
        | some fn =>
          rw [h1] at h
          dsimp only at h
          cases h2 : addCalls fn.body with
          | none => rw [h2] at h; cases h
          | some cs =>
            rw [h2] at h
            dsimp only at h
            have hcs : succs m f = some cs := by unfold succs; rw [h1]; exact h2
            refine ih _ _ ?_ ?_ h
            · intro g hg
              rcases List.mem_append.mp hg with hg | hg
              · obtain ⟨cs', h4, h5⟩ := hd g hg
                refine ⟨cs', h4, fun x hx => ?_⟩
                rcases h5 x hx with h | h
                · exact Or.inl (List.mem_append_left _ h)
                · rcases List.mem_cons.mp h with h | h
                  · exact Or.inl (by simp [h])
                  · exact Or.inr (List.mem_append_left _ h)
              · simp only [List.mem_singleton] at hg
                subst hg
                exact ⟨cs, hcs, fun x hx => Or.inr (List.mem_append_right _ hx)⟩
            · intro g hg
              rcases hr g hg with h | h
              · exact Or.inl (List.mem_append_left _ h)
              · rcases List.mem_cons.mp h with h | h
                · exact Or.inl (by simp [h])
                · exact Or.inr (List.mem_append_left _ h)

end traversal

/-! ## roots -/

theorem function_iff {M : Spec.Mod} (hg : Spec.Good M) (f : Id) (fn : Func) :
    (Spec.toModule M).function f = some fn ↔
      ∃ body, (f, body) ∈ M.funcs ∧ fn = ⟨f, body.map Spec.encode⟩ := by
  have hnd := hg.once
  unfold Module.function Spec.toModule
  dsimp only
  generalize M.funcs = fs at hnd
  induction fs with
  | nil => simp
  | cons x fs ih =>
    obtain ⟨g, body⟩ := x
    rw [List.map_cons, List.nodup_cons] at hnd
    rw [List.map_cons]
    by_cases hx : g = f
    · subst hx
      rw [List.find?_cons_of_pos (by simp)]
      constructor
      · intro h; cases h; exact ⟨body, List.mem_cons_self, rfl⟩
      · rintro ⟨b, h1, rfl⟩
        rcases List.mem_cons.mp h1 with h | h
        · cases h; rfl
        · exact absurd (List.mem_map.mpr ⟨_, h, rfl⟩) hnd.1
    · rw [List.find?_cons_of_neg (by simpa using hx)]
      refine (ih hnd.2).trans ?_
      constructor
      · rintro ⟨b, h1, h2⟩; exact ⟨b, List.mem_cons_of_mem _ h1, h2⟩
      · rintro ⟨b, h1, h2⟩
        rcases List.mem_cons.mp h1 with h | h
        · cases h; exact absurd rfl hx
        · exact ⟨b, h, h2⟩

theorem entryRoots_spec (es : List (Nat × Id × List Nat)) :
    entryRoots (es.map fun e => e.1 :: e.2.1 :: e.2.2) = some (es.map (·.2.1)) := by
  induction es with
  | nil => rfl
  | cons e es ih => rw [List.map_cons, entryRoots, ih]; rfl

theorem exported_harmless {a : Annotation} (h : Spec.Harmless a) : exported a = some none := by
  unfold exported
  split
  · rename_i hd
    obtain ⟨t, d, rest, h1, h2⟩ := h hd
    rw [h1]
    simp only [List.getElem?_cons_succ, List.getElem?_cons_zero]
    split
    · rename_i hl
      obtain ⟨l, h3, h4⟩ := h2 hl
      have hlen : (t :: d :: rest).length - 1 = rest.length + 1 := by simp
      have hne : rest ≠ [] := by intro h; rw [h] at h3; cases h3
      have : (t :: d :: rest)[(t :: d :: rest).length - 1]? = some l := by
        rw [hlen, List.getElem?_cons_succ]
        cases rest with
        | nil => exact absurd rfl hne
        | cons r rs =>
          rw [List.length_cons, List.getElem?_cons_succ, ← h3, List.getLast?_eq_getElem?]
          rfl
      rw [this]
      dsimp only
      rw [if_neg (show ¬ l = linkageExport from h4)]
    · rfl
  · rfl

theorem exportRoots_spec (m : Module) (ex : List (Id × Nat)) (os : List Annotation)
    (h : ∀ a ∈ os, Spec.Harmless a) :
    exportRoots m (ex.map (fun e => ⟨true, [e.1, 41, e.2, 0]⟩) ++ os) =
      some ((ex.map (·.1)).filter fun f => (m.function f).isSome) := by
  have h1 : exportRoots m os = some [] := by
    induction os with
    | nil => rfl
    | cons a os ih =>
      rw [exportRoots, exported_harmless (h a List.mem_cons_self),
        ih (fun b hb => h b (List.mem_cons_of_mem _ hb))]
  induction ex with
  | nil => exact h1
  | cons e ex ih =>
    rw [List.map_cons, List.cons_append, exportRoots, ih]
    have : exported ⟨true, [e.1, 41, e.2, 0]⟩ = some (some e.1) := rfl
    rw [this]
    dsimp only
    rw [List.map_cons, List.filter_cons]

theorem succs_iff {M : Spec.Mod} (hg : Spec.Good M) (f : Id) (cs : List Id) :
    succs (Spec.toModule M) f = some cs ↔
      ∃ body, (f, body) ∈ M.funcs ∧ cs = body.flatMap Spec.callees := by
  unfold succs
  rw [Option.bind_eq_some_iff]
  constructor
  · rintro ⟨fn, h1, h2⟩
    obtain ⟨body, h3, rfl⟩ := (function_iff hg f fn).mp h1
    rw [addCalls_encode] at h2
    cases h2
    exact ⟨body, h3, rfl⟩
  · rintro ⟨body, h1, rfl⟩
    exact ⟨_, (function_iff hg f _).mpr ⟨body, h1, rfl⟩, addCalls_encode body⟩

theorem isFunc_iff {M : Spec.Mod} (hg : Spec.Good M) (f : Id) :
    ((Spec.toModule M).function f).isSome = true ↔ Spec.IsFunc M f := by
  rw [Option.isSome_iff_exists]
  constructor
  · rintro ⟨fn, h⟩
    obtain ⟨body, h1, _⟩ := (function_iff hg f fn).mp h
    exact ⟨body, h1⟩
  · rintro ⟨body, h⟩
    exact ⟨_, (function_iff hg f _).mpr ⟨body, h, rfl⟩⟩

def rootsOf (M : Spec.Mod) : List Id :=
  M.entryPoints.map (·.2.1) ++
    (M.exports.map (·.1)).filter fun f => ((Spec.toModule M).function f).isSome

theorem live_iff {M : Spec.Mod} (hg : Spec.Good M) (f : Id) :
    Spec.Live M f ↔ Reach (Spec.toModule M) (rootsOf M) f := by
  constructor
  · intro h
    induction h with
    | @entry x f r h =>
      exact Reach.root (List.mem_append_left _ (List.mem_map.mpr ⟨_, h, rfl⟩))
    | @exported f n h hf =>
      exact Reach.root (List.mem_append_right _ (List.mem_filter.mpr
        ⟨List.mem_map.mpr ⟨_, h, rfl⟩, (isFunc_iff hg f).mpr hf⟩))
    | @call f g h hc ih =>
      obtain ⟨body, h1, i, h2, h3⟩ := hc
      exact Reach.step ih ((succs_iff hg f _).mpr ⟨body, h1, rfl⟩)
        (List.mem_flatMap.mpr ⟨i, h2, h3⟩)
  · intro h
    induction h with
    | @root f h =>
      rcases List.mem_append.mp h with h | h
      · obtain ⟨e, h1, rfl⟩ := List.mem_map.mp h
        exact Spec.Live.entry (x := e.1) (r := e.2.2) h1
      · obtain ⟨h1, h2⟩ := List.mem_filter.mp h
        obtain ⟨e, h3, rfl⟩ := List.mem_map.mp h1
        exact Spec.Live.exported (n := e.2) h3 ((isFunc_iff hg _).mp h2)
    | @step f g cs h1 h2 h3 ih =>
      obtain ⟨body, h4, rfl⟩ := (succs_iff hg f cs).mp h2
      obtain ⟨i, h5, h6⟩ := List.mem_flatMap.mp h3
      exact Spec.Live.call ih ⟨body, h4, i, h5, h6⟩

theorem reachable_eq {M : Spec.Mod} (hg : Spec.Good M) :
    reachableCallTree (Spec.toModule M) =
      callTree (Spec.toModule M) (enough (Spec.toModule M) (rootsOf M)) (rootsOf M) [] := by
  unfold reachableCallTree
  have h1 : entryRoots (Spec.toModule M).entryPoints = some (M.entryPoints.map (·.2.1)) :=
    entryRoots_spec _
  have h2 := exportRoots_spec (Spec.toModule M) M.exports M.others hg.harmless
  have h3 : (Spec.toModule M).annotations =
      M.exports.map (fun e => ⟨true, [e.1, 41, e.2, 0]⟩) ++ M.others := rfl
  rw [h1, h3, h2]
  rfl

open Classical in
/-- **C47.** Provided every id that is called or named as an entry point is a function, the
pass keeps exactly the functions that can be called, through any chain of calls, from an
entry point or an exported function, in their order; nothing else in the module changes.
Missing from the full statement: exports through decoration groups (the code does not see
them, `group_export_removed`) and instructions that refer to a function otherwise than the
four kinds in `Spec.Body` (`noncall_reference_dangles`, `alias_scope_missed`). -/
theorem deadFunctions_exact_partial (M : Spec.Mod) (hg : Spec.Good M)
    (hf : ∀ f, Spec.Live M f → Spec.IsFunc M f) :
    process (Spec.toModule M) =
      some (Spec.toModule { M with funcs := M.funcs.filter fun f => decide (Spec.Live M f.1) }) := by
  obtain ⟨live, h1, h2⟩ := callTree_spec (Spec.toModule M) (rootsOf M)
    (enough (Spec.toModule M) (rootsOf M)) (rootsOf M) [] (by
      unfold enough pending; simp) (fun f h => Reach.root h) (by simp) (fun f h => Or.inr h) (by
      intro f h
      obtain ⟨body, hb⟩ := hf f ((live_iff hg f).mpr h)
      exact ⟨_, (succs_iff hg f _).mpr ⟨body, hb, rfl⟩⟩)
  unfold process
  rw [reachable_eq hg, h1]
  dsimp only
  congr 1
  unfold Spec.toModule
  dsimp only
  congr 1
  rw [List.filter_map]
  congr 1
  apply List.filter_congr
  intro f _
  simp only [Function.comp]
  congr 1
  rw [h2, live_iff hg]

/-- If an id that is called or named as an entry point is not a function, the pass runs
into the assertion (a null dereference in release builds). -/
theorem deadFunctions_asserts (M : Spec.Mod) (hg : Spec.Good M) {f : Id} (hl : Spec.Live M f)
    (hf : ¬ Spec.IsFunc M f) : process (Spec.toModule M) = none := by
  unfold process
  rw [reachable_eq hg]
  cases h : callTree (Spec.toModule M) (enough (Spec.toModule M) (rootsOf M)) (rootsOf M) [] with
  | none => rfl
  | some live =>
    exfalso
    obtain ⟨cs, hcs⟩ := callTree_fails (Spec.toModule M) (rootsOf M) _ (rootsOf M) [] (by simp)
      (fun f h => Or.inr h) h f ((live_iff hg f).mp hl)
    obtain ⟨body, hb, _⟩ := (succs_iff hg f cs).mp hcs
    exact hf ⟨body, hb⟩

open Classical in
/-- In the resulting module every call and every entry point still names a function. -/
theorem deadFunctions_closed_partial (M : Spec.Mod) (hg : Spec.Good M)
    (hf : ∀ f, Spec.Live M f → Spec.IsFunc M f) :
    ∃ M' : Spec.Mod, process (Spec.toModule M) = some (Spec.toModule M') ∧
      (∀ x f r, (x, f, r) ∈ M'.entryPoints → Spec.IsFunc M' f) ∧
      (∀ f g, Spec.Calls M' f g → Spec.IsFunc M' g) := by
  refine ⟨_, deadFunctions_exact_partial M hg hf, ?_, ?_⟩
  · intro x f r h
    have hl : Spec.Live M f := Spec.Live.entry (x := x) (r := r) h
    obtain ⟨body, hb⟩ := hf f hl
    exact ⟨body, List.mem_filter.mpr ⟨hb, by simpa using hl⟩⟩
  · rintro f g ⟨body, h1, i, h2, h3⟩
    obtain ⟨h4, h5⟩ := List.mem_filter.mp h1
    have hl : Spec.Live M g := Spec.Live.call (by simpa using h5) ⟨body, h4, i, h2, h3⟩
    obtain ⟨body', hb⟩ := hf g hl
    exact ⟨body', List.mem_filter.mpr ⟨hb, by simpa using hl⟩⟩

/-! ## where the code falls short -/

/-- A function that is exported through a decoration group only is removed:
`OpDecorate %9 LinkageAttributes "f" Export` with group `%9`, `OpGroupDecorate %9 %1`. -/
theorem group_export_removed :
    (process ⟨[], [⟨true, [9, 41, 0, 0]⟩, ⟨false, [9, 1]⟩], [⟨1, []⟩]⟩).map (·.funcs) =
      some [] := by
  decide

/-- A function referred to otherwise than by a call (for instance as the `Invoke` operand
of OpEnqueueKernel) is removed while the reference stays. -/
theorem noncall_reference_dangles :
    (process ⟨[[0, 1]], [], [⟨1, [⟨.other, [7, 2]⟩]⟩, ⟨2, []⟩]⟩).map (·.funcs) =
      some [⟨1, [⟨.other, [7, 2]⟩]⟩] := by
  decide

/-- With one of the memory operands that `AddCalls` does not count (bit 16,
AliasScopeINTEL, carries an id), the decode function of OpCooperativeMatrixLoadTensor is
missed: the word taken for the tensor operands is that id (32). -/
theorem alias_scope_missed :
    callsOf ⟨.loadTensor, [10, 11, 12, 2 ^ 16, 32, 2, 5]⟩ = some [] := by
  decide

/-- `CollectCallTreeFromRoots` does not stop on a recursive function, whatever number of
iterations is allowed. -/
theorem collect_diverges (fuel : Nat) :
    collectCallTree ⟨[], [], [⟨1, [⟨.functionCall, [1]⟩]⟩]⟩ fuel [1] [] = none := by
  have key : ∀ fuel funcs,
      collectCallTree ⟨[], [], [⟨1, [⟨.functionCall, [1]⟩]⟩]⟩ fuel [1] funcs = none := by
    intro fuel
    induction fuel with
    | zero => intro funcs; rfl
    | succ fuel ih => intro funcs; exact ih _
  exact key fuel []

/-! ## the hypotheses are satisfiable -/

/-- Entry point 1 calls 2, which calls itself and decodes with 3; 4 is exported; 5 calls 1. -/
def exMod : Spec.Mod :=
  { entryPoints := [(0, 1, [])]
    exports := [(4, 77), (20, 78)]
    others := [⟨true, [2, 41, 79, 1]⟩, ⟨true, [1, 5]⟩, ⟨false, [9, 5]⟩]
    funcs := [(5, [.call 1 []]), (1, [.plain [5], .call 2 [8, 9]]),
      (2, [.call 2 [], .loadTensor 10 11 12 false true (some 16) none (some 6) (some 7) (some 3) none]),
      (3, []), (4, [])] }

example : Spec.Good exMod := by
  refine ⟨by decide, ?_⟩
  intro a ha
  simp only [exMod, List.mem_cons, List.not_mem_nil, or_false] at ha
  rcases ha with rfl | rfl | rfl
  · exact fun _ => ⟨2, 41, [79, 1], rfl, fun _ => ⟨1, rfl, by decide⟩⟩
  · exact fun _ => ⟨1, 5, [], rfl, fun h => absurd h (by decide)⟩
  · intro h; cases h

example : (process (Spec.toModule exMod)).map (fun m => m.funcs.map (·.id)) = some [1, 2, 3, 4] := by
  decide

example : ∀ f, Spec.Live exMod f → Spec.IsFunc exMod f := by
  intro f h
  have : f = 1 ∨ f = 2 ∨ f = 3 ∨ f = 4 := by
    induction h with
    | entry h => simp [exMod] at h; exact Or.inl h.2.1
    | @exported f n h hf =>
      obtain ⟨b, hb⟩ := hf
      simp only [exMod, List.mem_cons, List.not_mem_nil, or_false, Prod.mk.injEq] at h hb
      rcases h with h | h
      · exact Or.inr (Or.inr (Or.inr h.1))
      · rw [h.1] at hb; simp at hb
    | @call f g h hc ih =>
      obtain ⟨body, h1, i, h2, h3⟩ := hc
      simp only [exMod, List.mem_cons, List.not_mem_nil, or_false, Prod.mk.injEq] at h1
      rcases h1 with ⟨rfl, rfl⟩ | ⟨rfl, rfl⟩ | ⟨rfl, rfl⟩ | ⟨rfl, rfl⟩ | ⟨rfl, rfl⟩ <;>
        simp at h2 <;> (try rcases h2 with rfl | rfl) <;>
        simp_all [Spec.callees]
  rcases this with rfl | rfl | rfl | rfl
  · exact ⟨_, by simp [exMod]; rfl⟩
  · exact ⟨_, by simp [exMod]; rfl⟩
  · exact ⟨_, by simp [exMod]; rfl⟩
  · exact ⟨_, by simp [exMod]; rfl⟩

end Verif.DeadFunc
