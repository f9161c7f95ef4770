/-!
# The reducer  (source/reduce/reducer.cpp, source/reduce/reduction_pass.cpp)

`β` is the type of binaries. A finder is abstracted by the number of opportunities it
sees in a binary and by the binary obtained by trying to apply the opportunities
`lo ≤ i < hi` one after the other to a fresh copy of it
(`BuildModule`, `GetAvailableOpportunities`, `TryToApply`, `ToBinary`;
source/reduce/reduction_pass.cpp:32-37, 57-65); the result of `ToBinary` is never the
empty vector (it starts with the header). The validator is a predicate. The
interestingness function may depend on the binary and on the attempt number passed to
it, so any stateful test script is covered. Counters are `Nat`: the code uses
`uint32_t`, the model assumes that the step limit plus the number of passes, and twice
the number of opportunities, stay below `2^32`.
-/
namespace Verif.Reducer

structure Finder (β : Type) where
  count : β → Nat
  apply : β → Nat → Nat → β

/-- State of a `ReductionPass`: `granularity_`, `index_`
(source/reduce/reduction_pass.h:79-80; initially the largest `uint32_t` and 0, lines 42-43). -/
structure PassState where
  gran : Nat
  index : Nat
  deriving DecidableEq

def PassState.init : PassState := ⟨2 ^ 32 - 1, 0⟩

structure Config (β : Type) where
  valid : β → Bool
  interesting : β → Nat → Bool
  limit : Nat
  failOnInvalid : Bool

variable {β : Type}

/-- `ReductionPass::TryApplyReduction`, source/reduce/reduction_pass.cpp:24-66. -/
def tryApply (f : Finder β) (s : PassState) (b : β) : PassState × Option β :=
  let n := f.count b
  let g := if s.gran > n then max 1 n else s.gran
  if s.index ≥ n then (⟨max 1 (g / 2), 0⟩, none)
  else (⟨g, s.index⟩, some (f.apply b s.index (min (s.index + g) n)))

/-- `ReductionPass::NotifyInteresting`, source/reduce/reduction_pass.cpp:79-83. -/
def notify (s : PassState) (interesting : Bool) : PassState :=
  if interesting then s else ⟨s.gran, s.index + s.gran⟩

/-- Mutable state of `RunPasses`: `*current_binary`, `*reductions_applied`,
`another_round_worthwhile`. -/
structure St (β : Type) where
  cur : β
  applied : Nat
  worth : Bool

inductive Out (α β : Type) where
  | ok (a : α)
  /-- early return with `kStateInvalid` and the given binary -/
  | invalid (b : β) (applied : Nat)

/-- The `do … while` loop for one pass, source/reduce/reducer.cpp:188-232. -/
def passLoop (c : Config β) (f : Finder β) (s : PassState) (st : St β) : Out (PassState × St β) β :=
  match tryApply f s st.cur with
  | (s, none) => .ok (s, st)
  | (s, some r) =>
    let applied := st.applied + 1
    if !c.valid r && c.failOnInvalid then .invalid r applied
    else
      let good := c.valid r && c.interesting r applied
      let st' : St β := if good then ⟨r, applied, true⟩ else ⟨st.cur, applied, st.worth⟩
      let s := notify s good
      if applied ≥ c.limit then .ok (s, st')
      else passLoop c f s st'
termination_by c.limit - st.applied
decreasing_by
  simp only [st', good, applied] at *
  split <;> simp <;> omega

/-- The `for` loop over the passes (one round), source/reduce/reducer.cpp:178-233. -/
def round (c : Config β) : List (Finder β × PassState) → St β →
    Out (List (Finder β × PassState) × St β) β
  | [], st => .ok ([], st)
  | (f, s) :: ps, st =>
    match passLoop c f s { st with worth := st.worth || decide (s.gran ≠ 1) } with
    | .invalid b a => .invalid b a
    | .ok (s, st) => match round c ps st with
      | .invalid b a => .invalid b a
      | .ok (ps, st) => .ok ((f, s) :: ps, st)

inductive Status where
  | initialInvalid | initialNotInteresting | stateInvalid | reachedStepLimit | complete
  deriving DecidableEq

/-- `Reducer::RunPasses`, source/reduce/reducer.cpp:160-246. `none` = out of `fuel`
(number of rounds). Result: status, current binary, `reductions_applied`. -/
def runPasses (c : Config β) : Nat → List (Finder β × PassState) → St β →
    Option (Status × β × Nat)
  | 0, _, _ => none
  | fuel + 1, ps, st =>
    if st.applied < c.limit ∧ st.worth = true then
      match round c ps { st with worth := false } with
      | .invalid b a => some (.stateInvalid, b, a)
      | .ok (ps, st) => runPasses c fuel ps st
    else if st.applied ≥ c.limit then some (.reachedStepLimit, st.cur, st.applied)
    else some (.complete, st.cur, st.applied)

/-- `Reducer::Run`, source/reduce/reducer.cpp:57-104. Result: status, what is written
to `*binary_out` (`none` = left alone) and the number of attempts. -/
def run (c : Config β) (fuel : Nat) (passes cleanup : List (Finder β)) (b : β) :
    Option (Status × Option β × Nat) :=
  if !c.valid b then some (.initialInvalid, none, 0)
  else if !c.interesting b 0 then some (.initialNotInteresting, none, 0)
  else match runPasses c fuel (passes.map fun f => (f, .init)) ⟨b, 0, true⟩ with
    | none => none
    | some (.complete, cur, a) =>
      match runPasses c fuel (cleanup.map fun f => (f, .init)) ⟨cur, a, true⟩ with
      | none => none
      | some (r, cur, a) => some (r, some cur, a)
    | some (r, cur, a) => some (r, some cur, a)

end Verif.Reducer
