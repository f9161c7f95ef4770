/-!
# Longest common subsequence  (source/diff/lcs.h)

Sequences are lists; offsets are `Nat` (`uint32_t` in the code: the model assumes
sequence sizes below `2^32 - 1`, a table of larger sequences cannot be allocated).
The 30-bit `best_match_length` field is kept explicit. The `match` callback is a
pure function. `none` = failed assertion / out-of-bounds access.
-/
namespace Verif.Lcs

/-- `DiffMatchEntry`, source/diff/lcs.h:96-106: a missing entry is `valid == false`;
otherwise the pair is (`best_match_length`, `matched`). -/
abbrev Table := Nat → Nat → Option (Nat × Bool)

variable {α : Type}

/-- `IsInBound`, source/diff/lcs.h:60-62. -/
def inBound (n m : Nat) (i j : Nat) : Bool := decide (i < n) && decide (j < m)

/-- `IsCalculatedOrOutOfBound`, source/diff/lcs.h:67-69. -/
def calcOrOob (n m : Nat) (t : Table) (i j : Nat) : Bool :=
  !inBound n m i j || (t i j).isSome

/-- `GetMemoizedLength`, source/diff/lcs.h:70-76. -/
def memoLen (n m : Nat) (t : Table) (i j : Nat) : Option Nat :=
  if !inBound n m i j then some 0
  else (t i j).map (·.1)

/-- `MarkMatched`, source/diff/lcs.h:81-91; the assertions are lines 83, 85, 88. -/
def mark (n m : Nat) (t : Table) (i j len : Nat) (matched : Bool) : Option Table :=
  if !inBound n m i j then none
  else if (t i j).isSome then none
  else if len % 2 ^ 30 ≠ len then none
  else some fun a b => if a = i ∧ b = j then some (len % 2 ^ 30, matched) else t a b

/-- Number of table cells not yet calculated (termination measure only). -/
def todo (n m : Nat) (t : Table) : Nat :=
  ((List.range n).map fun i => (List.range m).countP fun j => (t i j).isNone).sum

def topKind (n m : Nat) (t : Table) : List (Nat × Nat) → Nat × Nat
  | [] => (0, 0)
  | (i, j) :: st => if (t i j).isSome then (1, st.length) else (0, n + m - (i + j))

theorem countP_lt_of (l : List Nat) (p q : Nat → Bool) (x : Nat) (hx : x ∈ l) (hp : p x = true)
    (hq : q x = false) (h : ∀ y ∈ l, q y = true → p y = true) : l.countP q < l.countP p := by
  induction l with
  | nil => simp at hx
  | cons a l ih =>
    rw [List.countP_cons, List.countP_cons]
    have hle : l.countP q ≤ l.countP p :=
      List.countP_mono_left fun y hy => h y (by simp [hy])
    rcases List.mem_cons.mp hx with rfl | hx
    · simp [hp, hq]; omega
    · have := ih hx fun y hy => h y (by simp [hy])
      have ha := h a (by simp)
      by_cases hqa : q a = true
      · simp [hqa, ha hqa]; omega
      · simp [hqa]; split <;> omega

theorem sum_lt_of (l : List Nat) (f g : Nat → Nat) (x : Nat) (hx : x ∈ l) (hlt : f x < g x)
    (h : ∀ y ∈ l, f y ≤ g y) : (l.map f).sum < (l.map g).sum := by
  induction l with
  | nil => simp at hx
  | cons a l ih =>
    simp only [List.map_cons, List.sum_cons]
    have ha := h a (by simp)
    have hrest : (l.map f).sum ≤ (l.map g).sum := by
      clear ih hx
      induction l with
      | nil => simp
      | cons b l ih2 =>
        simp only [List.map_cons, List.sum_cons]
        have := h b (by simp)
        have := ih2 (fun y hy => h y (by
          rcases List.mem_cons.mp hy with e | e
          · simp [e]
          · simp [e]))
        omega
    rcases List.mem_cons.mp hx with rfl | hx
    · omega
    · have := ih hx fun y hy => h y (by simp [hy])
      omega

theorem todo_mark (n m : Nat) (t t' : Table) (i j len : Nat) (b : Bool)
    (h : mark n m t i j len b = some t') : todo n m t' < todo n m t := by
  unfold mark at h
  split at h
  · simp at h
  · rename_i hin
    split at h
    · simp at h
    · rename_i hnone
      split at h
      · simp at h
      · simp only [Option.some.injEq] at h
        subst h
        simp only [inBound, Bool.not_eq_true, Bool.not_eq_false', Bool.and_eq_true,
          decide_eq_true_eq, Bool.not_eq_true'] at hin hnone
        have hin : i < n ∧ j < m := by simpa using hin
        unfold todo
        apply sum_lt_of _ _ _ i (List.mem_range.mpr hin.1)
        · apply countP_lt_of _ _ _ j (List.mem_range.mpr hin.2)
          · simpa using hnone
          · simp
          · intro y _; simp only; split <;> simp
        · intro y _
          apply List.countP_mono_left
          intro z _; simp only; split <;> simp

/-- `CalculateLCS`'s work loop, source/diff/lcs.h:147-192. The list is the
`std::stack` with its top first. -/
def calcLoop (mt : α → α → Bool) (src dst : List α) (t : Table) :
    List (Nat × Nat) → Option Table
  | [] => some t
  | (i, j) :: st =>
    let n := src.length
    let m := dst.length
    match src[i]?, dst[j]? with
    | some a, some b =>
      if hc : (t i j).isSome then calcLoop mt src dst t st
      else if mt a b then
        if hn : calcOrOob n m t (i + 1) (j + 1) then
          match memoLen n m t (i + 1) (j + 1) with
          | none => none
          | some l =>
            match hm : mark n m t i j (l + 1) true with
            | none => none
            | some t' => calcLoop mt src dst t' st
        else calcLoop mt src dst t ((i + 1, j + 1) :: (i, j) :: st)
      else
        if hb : calcOrOob n m t (i + 1) j && calcOrOob n m t i (j + 1) then
          match memoLen n m t (i + 1) j, memoLen n m t i (j + 1) with
          | some l1, some l2 =>
            match hm : mark n m t i j (max l1 l2) false with
            | none => none
            | some t' => calcLoop mt src dst t' st
          | _, _ => none
        else if hd : calcOrOob n m t i (j + 1) then
          calcLoop mt src dst t ((i + 1, j) :: (i, j) :: st)
        else if hs : calcOrOob n m t (i + 1) j then
          calcLoop mt src dst t ((i, j + 1) :: (i, j) :: st)
        else calcLoop mt src dst t ((i, j + 1) :: (i + 1, j) :: (i, j) :: st)
    | _, _ => none   -- assert(IsInBound(current)), line 150
termination_by st => (todo src.length dst.length t, topKind src.length dst.length t st)
decreasing_by
  all_goals simp_wf
  · -- pop of a calculated cell
    apply Prod.Lex.right
    simp only [topKind, hc, if_true]
    cases st with
    | nil => simp only [topKind]; apply Prod.Lex.left; omega
    | cons c st =>
      obtain ⟨a', b'⟩ := c
      simp only [topKind]
      split
      · apply Prod.Lex.right; simp
      · apply Prod.Lex.left; omega
  · apply Prod.Lex.left; exact todo_mark _ _ _ _ _ _ _ _ hm
  · apply Prod.Lex.right
    simp only [calcOrOob, Bool.or_eq_true, not_or, Bool.not_eq_true, inBound] at hn
    have hn2 : (t (i+1) (j+1)).isSome = false := by simpa using hn.2
    have hn1 : i + 1 < src.length ∧ j + 1 < dst.length := by simpa using hn.1
    simp only [topKind, hc, hn2, if_false, Bool.false_eq_true]
    apply Prod.Lex.right; omega
  · apply Prod.Lex.left; exact todo_mark _ _ _ _ _ _ _ _ hm
  · apply Prod.Lex.right
    have hs : calcOrOob src.length dst.length t (i + 1) j = false := by
      simp only [Bool.and_eq_true, not_and, Bool.not_eq_true] at hb
      cases h : calcOrOob src.length dst.length t (i + 1) j
      · rfl
      · have := hb h; rw [hd] at this; simp at this
    simp only [calcOrOob, inBound, Bool.or_eq_false_iff] at hs
    have hn1 : i + 1 < src.length ∧ j < dst.length := by simpa using hs.1
    simp only [topKind, hc, hs.2, if_false, Bool.false_eq_true]
    apply Prod.Lex.right; omega
  · apply Prod.Lex.right
    simp only [calcOrOob, inBound, Bool.or_eq_true, not_or, Bool.not_eq_true] at hd
    have hn2 : (t i (j+1)).isSome = false := by simpa using hd.2
    have hn1 : i < src.length ∧ j + 1 < dst.length := by simpa using hd.1
    simp only [topKind, hc, hn2, if_false, Bool.false_eq_true]
    apply Prod.Lex.right; omega
  · apply Prod.Lex.right
    simp only [calcOrOob, inBound, Bool.or_eq_true, not_or, Bool.not_eq_true] at hd
    have hn2 : (t i (j+1)).isSome = false := by simpa using hd.2
    have hn1 : i < src.length ∧ j + 1 < dst.length := by simpa using hd.1
    simp only [topKind, hc, hn2, if_false, Bool.false_eq_true]
    apply Prod.Lex.right; omega

/-- `CalculateLCS`, source/diff/lcs.h:123-193; the table starts invalid
everywhere (line 40, 97). -/
def calculate (mt : α → α → Bool) (src dst : List α) : Option Table :=
  if src.isEmpty || dst.isEmpty then some fun _ _ => none
  else calcLoop mt src dst (fun _ _ => none) [(0, 0)]

/-- Walk of `RetrieveMatch`, source/diff/lcs.h:204-218, from offset `(i, j)`, with
the two result vectors. `IsMatched` asserts the entry is calculated (line 78). -/
def retrieveLoop (n m : Nat) (t : Table) (i j : Nat) (sm dm : List Bool) :
    Option (List Bool × List Bool) :=
  if h : i < n ∧ j < m then
    match t i j with
    | none => none
    | some (_, true) => retrieveLoop n m t (i + 1) (j + 1) (sm.set i true) (dm.set j true)
    | some (_, false) =>
      match memoLen n m t (i + 1) j, memoLen n m t i (j + 1) with
      | some l1, some l2 =>
        if l1 ≥ l2 then retrieveLoop n m t (i + 1) j sm dm
        else retrieveLoop n m t i (j + 1) sm dm
      | _, _ => none
  else some (sm, dm)
termination_by (n - i) + (m - j)

/-- `Get`, source/diff/lcs.h:113-119 (with the `resize` calls of lines 198-202):
the returned length and the two match vectors. -/
def get (mt : α → α → Bool) (src dst : List α) : Option (Nat × List Bool × List Bool) :=
  match calculate mt src dst with
  | none => none
  | some t =>
    match retrieveLoop src.length dst.length t 0 0
        (List.replicate src.length false) (List.replicate dst.length false),
      memoLen src.length dst.length t 0 0 with
    | some (sm, dm), some l => some (l, sm, dm)
    | _, _ => none

end Verif.Lcs
