import Verif.Loader.Spec

/-! # The lists of the module as a sorted list of placed instructions -/
set_option linter.unusedSimpArgs false
set_option linter.unusedVariables false
namespace Verif.Loader
open Verif.StringLit (Word)
open Spec (Rank Info Key Eff key norm)

/-- The line that applies to an IR instruction: the last attached one. -/
def lineKey (x : PInst) : Option Key := if x.isNoLine then none else some (key x)

def Instr.line (i : Instr) : Option Key :=
  match i.lines.getLast? with
  | some l => lineKey l.inst
  | none => none

def infoOf (i : Instr) : Info := ⟨i.inst, i.line, i.scope⟩

abbrev Seg := Rank × List Instr

def flat (l : List Seg) : List (Rank × Info) := l.flatMap fun p => p.2.map fun i => (p.1, infoOf i)

@[simp] theorem flat_nil : flat [] = [] := rfl
@[simp] theorem flat_append (a b : List Seg) : flat (a ++ b) = flat a ++ flat b := by simp [flat]
theorem flat_cons (p : Seg) (l : List Seg) : flat (p :: l) = p.2.map (fun i => (p.1, infoOf i)) ++ flat l := by
  simp [flat]
@[simp] theorem flat_cons_nil (r : Rank) (l : List Seg) : flat ((r, []) :: l) = flat l := by simp [flat]

theorem flat_ranks {l : List Seg} {q : Rank × Info} (h : q ∈ flat l) : ∃ p ∈ l, p.1 = q.1 := by
  simp only [flat, List.mem_flatMap, List.mem_map] at h
  obtain ⟨p, hp, i, _, rfl⟩ := h
  exact ⟨p, hp, rfl⟩

theorem insert_append {a : Rank × Info} : ∀ {A B : List (Rank × Info)}, (∀ b ∈ A, b.1.le a.1 = true) →
    (∀ b ∈ B, b.1.le a.1 = false) → Spec.insert a (A ++ B) = A ++ a :: B
  | [], [], _, _ => rfl
  | [], b :: B, _, h => by
    have := h b (by simp)
    simp [Spec.insert, this]
  | b :: A, B, h, h' => by
    have hb := h b (by simp)
    have := insert_append (A := A) (B := B) (fun x hx => h x (by simp [hx])) h'
    simp [Spec.insert, hb, this]

theorem insert_flat {r : Rank} {ys : List Instr} {i : Instr} {l1 l2 : List Seg}
    (h1 : ∀ p ∈ l1, p.1.le r = true) (h2 : ∀ p ∈ l2, p.1.le r = false) :
    Spec.insert (r, infoOf i) (flat (l1 ++ (r, ys) :: l2)) = flat (l1 ++ (r, ys ++ [i]) :: l2) := by
  have e1 : flat (l1 ++ (r, ys) :: l2) = (flat l1 ++ ys.map fun i => (r, infoOf i)) ++ flat l2 := by
    simp [flat_cons]
  rw [e1, insert_append]
  · simp [flat_cons]
  · intro b hb
    rcases List.mem_append.1 hb with hb | hb
    · obtain ⟨p, hp, e⟩ := flat_ranks hb
      rw [← e]; exact h1 p hp
    · simp only [List.mem_map] at hb
      obtain ⟨_, _, rfl⟩ := hb
      simp [Rank.le]
  · intro b hb
    obtain ⟨p, hp, e⟩ := flat_ranks hb
    rw [← e]; exact h2 p hp

def fnSegs (k : Nat) (f : OpenFn) (tail : List Instr) : List Seg :=
  [((13, 4 * k), [f.defn]), ((13, 4 * k + 1), f.params), ((13, 4 * k + 2), f.header),
   ((13, 4 * k + 3), f.blocks.flatten ++ tail)]

def fnsSegs : Nat → List Fn → List Seg
  | _, [] => []
  | k, f :: fs => fnSegs k f.body (f.fin.toList ++ f.nonSem) ++ fnsSegs (k + 1) fs

def openFnSegs (k : Nat) : Option OpenFn → Option (List Instr) → List Seg
  | none, _ => []
  | some f, b => fnSegs k f (b.getD [])

def grSegs (k : Nat) (g : OpenGraph) (tail : List Instr) : List Seg :=
  [((15, 5 * k), [g.defn]), ((15, 5 * k + 1), g.inputs), ((15, 5 * k + 2), g.insts),
   ((15, 5 * k + 3), g.outputs), ((15, 5 * k + 4), tail)]

def grsSegs : Nat → List Graph → List Seg
  | _, [] => []
  | k, g :: gs => grSegs k g.body (g.fin :: g.nonSem) ++ grsSegs (k + 1) gs

def openGrSegs (k : Nat) : Option OpenGraph → List Seg
  | none => []
  | some g => grSegs k g []

def globalSegs (m : Mod) : List Seg :=
  [((0, 0), m.caps), ((1, 0), m.exts), ((2, 0), m.imports), ((3, 0), m.memoryModel.toList),
   ((4, 0), m.sampler.toList), ((5, 0), m.entryPoints), ((6, 0), m.modes), ((7, 0), m.debugs1),
   ((8, 0), m.debugs2), ((9, 0), m.debugs3), ((10, 0), m.annotations), ((11, 0), m.typesValues),
   ((12, 0), m.debugInfo)]

def segs (s : LState) : List Seg :=
  globalSegs s.m ++ (fnsSegs 0 s.m.fns ++ (openFnSegs s.m.fns.length s.fn s.blk ++
    (((14, 0), s.m.graphEntryPoints) :: (grsSegs 0 s.m.graphs ++ openGrSegs s.m.graphs.length s.gr))))

theorem fnsSegs_append : ∀ (k : Nat) (a b : List Fn), fnsSegs k (a ++ b) = fnsSegs k a ++ fnsSegs (k + a.length) b
  | k, [], b => by simp [fnsSegs]
  | k, f :: a, b => by
    simp only [List.cons_append, fnsSegs, fnsSegs_append (k + 1) a b, List.append_assoc, List.length_cons]
    have : k + 1 + a.length = k + (a.length + 1) := by omega
    rw [this]

theorem grsSegs_append : ∀ (k : Nat) (a b : List Graph), grsSegs k (a ++ b) = grsSegs k a ++ grsSegs (k + a.length) b
  | k, [], b => by simp [grsSegs]
  | k, f :: a, b => by
    simp only [List.cons_append, grsSegs, grsSegs_append (k + 1) a b, List.append_assoc, List.length_cons]
    have : k + 1 + a.length = k + (a.length + 1) := by omega
    rw [this]

theorem fnSegs_ranks {k f t} {p : Seg} (h : p ∈ fnSegs k f t) : p.1.1 = 13 ∧ 4 * k ≤ p.1.2 ∧ p.1.2 < 4 * (k + 1) := by
  simp only [fnSegs, List.mem_cons, List.not_mem_nil, or_false] at h
  rcases h with rfl | rfl | rfl | rfl <;> simp only [true_and] <;> omega

theorem grSegs_ranks {k f t} {p : Seg} (h : p ∈ grSegs k f t) : p.1.1 = 15 ∧ 5 * k ≤ p.1.2 ∧ p.1.2 < 5 * (k + 1) := by
  simp only [grSegs, List.mem_cons, List.not_mem_nil, or_false] at h
  rcases h with rfl | rfl | rfl | rfl | rfl <;> simp only [true_and] <;> omega

theorem fnsSegs_ranks : ∀ {k : Nat} {fs : List Fn} {p : Seg}, p ∈ fnsSegs k fs →
    p.1.1 = 13 ∧ 4 * k ≤ p.1.2 ∧ p.1.2 < 4 * (k + fs.length)
  | k, [], p, h => by simp [fnsSegs] at h
  | k, f :: fs, p, h => by
    simp only [fnsSegs, List.mem_append, List.length_cons] at *
    rcases h with h | h
    · have := fnSegs_ranks h; omega
    · have := fnsSegs_ranks h; omega

theorem grsSegs_ranks : ∀ {k : Nat} {fs : List Graph} {p : Seg}, p ∈ grsSegs k fs →
    p.1.1 = 15 ∧ 5 * k ≤ p.1.2 ∧ p.1.2 < 5 * (k + fs.length)
  | k, [], p, h => by simp [grsSegs] at h
  | k, f :: fs, p, h => by
    simp only [grsSegs, List.mem_append, List.length_cons] at *
    rcases h with h | h
    · have := grSegs_ranks h; omega
    · have := grsSegs_ranks h; omega

theorem openFnSegs_ranks {k f b} {p : Seg} (h : p ∈ openFnSegs k f b) :
    p.1.1 = 13 ∧ 4 * k ≤ p.1.2 ∧ p.1.2 < 4 * (k + 1) := by
  cases f with
  | none => simp [openFnSegs] at h
  | some f => exact fnSegs_ranks h

theorem openGrSegs_ranks {k f} {p : Seg} (h : p ∈ openGrSegs k f) :
    p.1.1 = 15 ∧ 5 * k ≤ p.1.2 ∧ p.1.2 < 5 * (k + 1) := by
  cases f with
  | none => simp [openGrSegs] at h
  | some f => exact grSegs_ranks h

theorem globalSegs_ranks {m} {p : Seg} (h : p ∈ globalSegs m) : p.1.1 ≤ 12 := by
  simp only [globalSegs, List.mem_cons, List.not_mem_nil, or_false] at h
  rcases h with rfl | rfl | rfl | rfl | rfl | rfl | rfl | rfl | rfl | rfl | rfl | rfl | rfl <;> simp

theorem le_true_iff {a b : Rank} : a.le b = true ↔ a.1 < b.1 ∨ (a.1 = b.1 ∧ a.2 ≤ b.2) := by
  simp [Rank.le]

theorem le_false_iff {a b : Rank} : a.le b = false ↔ ¬ (a.1 < b.1 ∨ (a.1 = b.1 ∧ a.2 ≤ b.2)) := by
  rw [← le_true_iff, Bool.not_eq_true]

/-! ## Adding to the global lists -/

/-- The segments after the global ones. -/
def restSegs (s : LState) : List Seg :=
  fnsSegs 0 s.m.fns ++ (openFnSegs s.m.fns.length s.fn s.blk ++
    (((14, 0), s.m.graphEntryPoints) :: (grsSegs 0 s.m.graphs ++ openGrSegs s.m.graphs.length s.gr)))

theorem restSegs_ranks {s} {p : Seg} (h : p ∈ restSegs s) : 13 ≤ p.1.1 := by
  simp only [restSegs, List.mem_append, List.mem_cons] at h
  rcases h with h | h | rfl | h | h
  · have := fnsSegs_ranks h; omega
  · have := openFnSegs_ranks h; omega
  · simp
  · have := grsSegs_ranks h; omega
  · have := openGrSegs_ranks h; omega

theorem insert_global {r : Rank} {ys : List Instr} {i : Instr} {l1 l2 : List Seg} {rest : List Seg}
    (hrest : ∀ p ∈ rest, 13 ≤ p.1.1) (hr : r.1 ≤ 12)
    (h1 : ∀ p ∈ l1, p.1.1 < r.1) (h2 : ∀ p ∈ l2, r.1 < p.1.1) :
    Spec.insert (r, infoOf i) (flat ((l1 ++ (r, ys) :: l2) ++ rest)) =
      flat ((l1 ++ (r, ys ++ [i]) :: l2) ++ rest) := by
  have := insert_flat (r := r) (ys := ys) (i := i) (l1 := l1) (l2 := l2 ++ rest)
    (fun p hp => le_true_iff.2 (.inl (h1 p hp)))
    (fun p hp => le_false_iff.2 (by
      rcases List.mem_append.1 hp with hp | hp
      · have := h2 p hp; omega
      · have := hrest p hp; omega))
  simpa using this

end Verif.Loader
