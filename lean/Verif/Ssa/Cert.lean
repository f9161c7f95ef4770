import Verif.Ssa.Spec

/-
# A system of reaching definitions is enough

`Cert`: ids chosen for the values of the variables that satisfy, block by block, the
equations of reaching definitions.  Whatever algorithm found them, the program that uses
them computes the same values.
-/

set_option linter.unusedSimpArgs false
set_option linter.unusedVariables false

namespace Verif.Ssa

/-- The value last stored to `v`. -/
def lastStore (v : Var) (is : List Inst) : Option Id :=
  is.foldl (fun acc i => match i with
    | .store w x => if w = v then some x else acc
    | _ => acc) none

/-- The value of `v` after `q`: what was stored in the block, else its value at entry. -/
def reaching (P : Prog) (E : Block → Var → Option Id) (v : Var) (q : Pt) : Option Id :=
  match lastStore v ((P.insts q.1).take q.2) with
  | some x => some x
  | none => E q.1 v

abbrev PhiMap := Id → Option (Block × Var × (Block → Id))

structure Cert (P : Prog) (fresh : Id) (phi : PhiMap) (c : Id → Option Id)
    (E : Block → Var → Option Id) : Prop where
  phi_new : ∀ x f, phi x = some f → fresh ≤ x
  phi_entry : ∀ x f, phi x = some f → f.1 ≠ P.entry
  phi_arg : ∀ x b v a, phi x = some (b, v, a) → ∀ p ∈ P.preds b, p ∈ P.order →
    reaching P E v (p, (P.insts p).length) = some (a p)
  ent0 : ∀ v x, E P.entry v = some x → x = P.undef v
  ent : ∀ b v x, b ∈ P.order → b ≠ P.entry → E b v = some x → (∃ a, phi x = some (b, v, a)) ∨
    ∀ p ∈ P.preds b, p ∈ P.order → reaching P E v (p, (P.insts p).length) = some x
  load : ∀ (b : Block) (k : Nat) (r : Id) (v : Var), b ∈ P.order → (P.insts b)[k]? = some (Inst.load r v) →
    ∃ x, c r = some x ∧ reaching P E v (b, k) = some x
  c_load : ∀ r x, c r = some x → ∃ (b : Block) (k : Nat) (v : Var), b ∈ P.order ∧ (P.insts b)[k]? = some (Inst.load r v)

/-- One step of a walk. -/
inductive Next (P : Prog) : Pt → Pt → Prop
  | step {b k} : k < (P.insts b).length → Next P (b, k) (b, k + 1)
  | edge {b c} : b ∈ P.preds c → Next P (b, (P.insts b).length) (c, 0)

theorem trace_cons {P : Prog} {q q' : Pt} {t : List Pt} :
    Trace P (q :: q' :: t) ↔ Trace P (q' :: t) ∧ Next P q' q := by
  constructor
  · intro h
    cases h with
    | step h hk => exact ⟨h, .step hk⟩
    | edge h hk hp => subst hk; exact ⟨h, .edge hp⟩
  · rintro ⟨h, hn⟩
    cases hn with
    | step hk => exact .step h hk
    | edge hp => exact .edge h rfl hp

theorem trace_one {P : Prog} {q : Pt} : Trace P [q] ↔ q = (P.entry, 0) := by
  constructor
  · intro h; cases h; rfl
  · rintro rfl; exact .start

theorem trace_suffix {P : Prog} : ∀ (u : List Pt) {s : List Pt}, Trace P (u ++ s) → s ≠ [] →
    Trace P s
  | [], _, h, _ => h
  | [a], q :: s, h, _ => (trace_cons.1 h).1
  | a :: b :: u, s, h, hs => trace_suffix (b :: u) ((trace_cons (t := u ++ s)).1 h).1 hs
  | [a], [], _, hs => absurd rfl hs

theorem trace_splice {P : Prog} : ∀ (u : List Pt) {q : Pt} {s s' : List Pt},
    Trace P (u ++ q :: s) → Trace P (q :: s') → Trace P (u ++ q :: s')
  | [], _, _, _, _, h' => h'
  | [a], q, s, s', h, h' => trace_cons.2 ⟨h', (trace_cons.1 h).2⟩
  | a :: b :: u, q, s, s', h, h' =>
    have h1 := (trace_cons (t := u ++ q :: s)).1 h
    (trace_cons (t := u ++ q :: s')).2 ⟨trace_splice (b :: u) h1.1 h', h1.2⟩

theorem mem_split_first {q : Pt} : ∀ {t : List Pt}, q ∈ t → ∃ u s, t = u ++ q :: s ∧ q ∉ s
  | a :: t, h => by
    by_cases hq : q ∈ t
    · obtain ⟨u, s, e, hn⟩ := mem_split_first hq
      exact ⟨a :: u, s, by simp [e], hn⟩
    · simp [hq] at h
      exact ⟨[], t, by simp [h], hq⟩

theorem mem_split_last {q : Pt} : ∀ {t : List Pt}, q ∈ t → ∃ u s, t = u ++ q :: s ∧ q ∉ u
  | a :: t, h => by
    by_cases hq : q = a
    · exact ⟨[], t, by simp [hq], by simp⟩
    · have : q ∈ t := by simpa [hq] using h
      obtain ⟨u, s, e, hn⟩ := mem_split_last this
      exact ⟨a :: u, s, by simp [e], by simp [hq, hn]⟩

theorem trace_order {P : Prog} {fresh : Id} (hV : Valid P fresh) {t : List Pt} (h : Trace P t) :
    ∀ q ∈ t, q.1 ∈ P.order := by
  induction h with
  | start => simp [hV.entry_mem]
  | @step b k t h hk ih =>
    intro q hq
    rcases List.mem_cons.1 hq with rfl | hq
    · exact ih (b, k) (List.mem_cons_self ..)
    · exact ih q hq
  | edge h hk hp ih =>
    intro q hq
    rcases List.mem_cons.1 hq with rfl | hq
    · exact hV.closed _ (ih (_, _) (List.mem_cons_self ..)) _ hp
    · exact ih q hq

/-! ## Reaching definitions inside a block -/

theorem reaching_zero {P : Prog} {E : Block → Var → Option Id} {v : Var} {b : Block} :
    reaching P E v (b, 0) = E b v := by
  simp [reaching, lastStore]

theorem lastStore_succ {v : Var} {is : List Inst} {k : Nat} {i : Inst} (h : is[k]? = some i) :
    lastStore v (is.take (k + 1)) = (match i with
      | .store w x => if w = v then some x else lastStore v (is.take k)
      | _ => lastStore v (is.take k)) := by
  have : is.take (k + 1) = is.take k ++ [i] := by
    rw [List.take_add_one, h]; rfl
  rw [this, lastStore, List.foldl_append]
  cases i <;> rfl

theorem reaching_store {P : Prog} {E : Block → Var → Option Id} {v : Var} {b : Block} {k : Nat} {x : Id}
    (h : (P.insts b)[k]? = some (.store v x)) : reaching P E v (b, k + 1) = some x := by
  simp only [reaching]
  rw [lastStore_succ h]; simp

theorem reaching_keep {P : Prog} {E : Block → Var → Option Id} {v : Var} {b : Block} {k : Nat} {i : Inst}
    (h : (P.insts b)[k]? = some i) (hi : ∀ x, i ≠ .store v x) :
    reaching P E v (b, k + 1) = reaching P E v (b, k) := by
  simp only [reaching]
  rw [lastStore_succ h]
  cases i with
  | store w x =>
    have : w ≠ v := fun e => hi x (by rw [e])
    simp [this]
  | load => rfl
  | other => rfl

/-! ## Definitions, phis included -/

/-- `x` is computed at `q`, by an instruction or by a new phi. -/
def GDef (P : Prog) (phi : PhiMap) (x : Id) (q : Pt) : Prop :=
  DefinedAt P x q ∨ q.2 = 0 ∧ ∃ f, phi x = some f ∧ f.1 = q.1

/-- `x` was computed on the trace, or is computed nowhere. -/
def Avail (P : Prog) (phi : PhiMap) (x : Id) (t : List Pt) : Prop :=
  (∃ q ∈ t, GDef P phi x q) ∨ ∀ q : Pt, q.1 ∈ P.order → ¬ GDef P phi x q

theorem Avail.mono {P : Prog} {phi : PhiMap} {x : Id} {t t' : List Pt} (h : Avail P phi x t)
    (hs : ∀ q ∈ t, q ∈ t') : Avail P phi x t' := by
  rcases h with ⟨q, hq, hd⟩ | h
  · exact .inl ⟨q, hs q hq, hd⟩
  · exact .inr h

section
variable {P : Prog} {fresh : Id} {phi : PhiMap} {c : Id → Option Id} {E : Block → Var → Option Id}

theorem defined_lt (hV : Valid P fresh) {x : Id} {q : Pt} (hq : q.1 ∈ P.order)
    (h : DefinedAt P x q) : x < fresh := by
  obtain ⟨k, i, _, hi, hr⟩ := h
  exact (hV.ids _ hq i (List.mem_of_getElem? hi) x (.inr hr)).2

theorem phi_none (hC : Cert P fresh phi c E) {x : Id} (h : x < fresh) : phi x = none := by
  cases hx : phi x with
  | none => rfl
  | some f => exact absurd (hC.phi_new x f hx) (Nat.not_le.2 h)

theorem gdef_of_lt (hC : Cert P fresh phi c E) {x : Id} (h : x < fresh) {q : Pt} :
    GDef P phi x q ↔ DefinedAt P x q := by
  simp [GDef, phi_none hC h]

theorem gdef_unique (hV : Valid P fresh) (hC : Cert P fresh phi c E) {x : Id} {q q' : Pt}
    (hq : q.1 ∈ P.order) (hq' : q'.1 ∈ P.order) (h : GDef P phi x q) (h' : GDef P phi x q') :
    q = q' := by
  rcases h with h | ⟨h0, f, hf, h1⟩
  · have hl := defined_lt hV hq h
    exact hV.unique x q q' hq hq' h ((gdef_of_lt hC hl).1 h')
  · rcases h' with h' | ⟨h0', f', hf', h1'⟩
    · exact absurd (hC.phi_new x f hf) (Nat.not_le.2 (defined_lt hV hq' h'))
    · rw [hf] at hf'; cases hf'
      exact Prod.ext (h1.symm.trans h1') (h0.trans h0'.symm)

theorem operand_avail (hV : Valid P fresh) (hC : Cert P fresh phi c E) {b : Block} {k : Nat} {t : List Pt}
    {i : Inst} {x : Id} (ht : Trace P ((b, k) :: t)) (hi : (P.insts b)[k]? = some i)
    (hx : x ∈ i.operands) : Avail P phi x ((b, k) :: t) := by
  have hb := trace_order hV ht (b, k) (List.mem_cons_self ..)
  have hl := (hV.ids b hb i (List.mem_of_getElem? hi) x (.inl hx)).2
  rcases hV.doms t b k i x ht hi hx with ⟨q, hq, hd⟩ | h
  · exact .inl ⟨q, hq, .inl hd⟩
  · exact .inr fun q hq hd => h q hq ((gdef_of_lt hC hl).1 hd)

theorem avail_reaching (hV : Valid P fresh) (hC : Cert P fresh phi c E) {v : Var} {t : List Pt}
    (ht : Trace P t) : ∀ q s x, t = q :: s → reaching P E v q = some x → Avail P phi x t := by
  induction ht with
  | start =>
    intro q s x e hr
    cases e
    rw [reaching_zero] at hr
    have hx := hC.ent0 v x hr
    subst hx
    exact .inr fun q hq hd => hV.undef_def v q hq ((gdef_of_lt hC (hV.undef_id v).2).1 hd)
  | @step b k t h hk ih =>
    intro q s x e hr
    cases e
    obtain ⟨i, hi⟩ : ∃ i, (P.insts b)[k]? = some i := ⟨_, List.getElem?_eq_getElem hk⟩
    by_cases hs : ∃ y, i = .store v y
    · obtain ⟨y, rfl⟩ := hs
      rw [reaching_store hi] at hr
      cases hr
      exact (operand_avail hV hC h hi (by simp [Inst.operands])).mono
        fun q hq => List.mem_cons_of_mem _ hq
    · rw [reaching_keep hi (fun y e => hs ⟨y, e⟩)] at hr
      exact (ih _ _ x rfl hr).mono fun q hq => List.mem_cons_of_mem _ hq
  | @edge b k t d h hk hp ih =>
    intro q s x e hr
    cases e
    rw [reaching_zero] at hr
    have hb := trace_order hV h (b, k) (List.mem_cons_self ..)
    have hd := hV.closed b hb d hp
    have hne : d ≠ P.entry := by
      rintro rfl; rw [hV.entry_preds] at hp; cases hp
    rcases hC.ent d v x hd hne hr with ⟨a, ha⟩ | hall
    · exact .inl ⟨(d, 0), List.mem_cons_self .., .inr ⟨rfl, _, ha, rfl⟩⟩
    · have := hall b hp hb
      rw [← hk] at this
      exact (ih _ _ x rfl this).mono fun q hq => List.mem_cons_of_mem _ hq

/-- A value that reaches every predecessor of a point is not computed at that point. -/
theorem not_def_next (hV : Valid P fresh) (hC : Cert P fresh phi c E) {v : Var} {x : Id} {q q' : Pt}
    {t : List Pt} (ht : Trace P (q :: q' :: t))
    (hr : ∀ q'', q''.1 ∈ P.order → Next P q'' q → reaching P E v q'' = some x) :
    ¬ GDef P phi x q := by
  intro hd
  obtain ⟨u, s, e, hn⟩ := mem_split_first (List.mem_cons_self (a := q) (l := q' :: t))
  have hs : Trace P (q :: s) := trace_suffix u (e ▸ ht) (by simp)
  cases s with
  | nil =>
    rw [trace_one] at hs
    subst hs
    have := (trace_cons.1 ht).2
    generalize hq : ((P.entry, 0) : Pt) = q0 at this
    cases this with
    | step => cases hq
    | edge hp => cases hq; rw [hV.entry_preds] at hp; cases hp
  | cons q'' s' =>
    have h1 := trace_cons.1 hs
    have ho := trace_order hV hs
    have hr' := hr q'' (ho q'' (by simp)) h1.2
    rcases avail_reaching hV hC h1.1 _ _ _ rfl hr' with ⟨q0, hq0, hd0⟩ | hg
    · have := gdef_unique hV hC (ho q0 (List.mem_cons_of_mem _ hq0)) (ho q (by simp)) hd0 hd
      subst this
      exact hn hq0
    · exact hg q (ho q (by simp)) hd

theorem next_step_unique {b : Block} {k : Nat} {q : Pt} (h : Next P q (b, k + 1)) : q = (b, k) := by
  cases h; rfl

/-! ## Values -/

variable {Val : Type} {F : Id → List Val → Val} {G : Id → Val} {M : Var → Val}

/-- The value of the variable when block `b` was last entered. -/
def phiVal (F : Id → List Val → Val) (P : Prog) (G : Id → Val) (M : Var → Val) (b : Block) (v : Var)
    (g : Val) : List Pt → Val
  | [] => g
  | (b', 0) :: t => if b' = b then (before F P G M t).2 v else phiVal F P G M b v g t
  | (_, _ + 1) :: t => phiVal F P G M b v g t

/-- The values before the rewriting, with the new phis standing for their variables. -/
def gv (F : Id → List Val → Val) (P : Prog) (G : Id → Val) (M : Var → Val) (phi : PhiMap)
    (t : List Pt) (x : Id) : Val :=
  match phi x with
  | none => (before F P G M t).1 x
  | some f => phiVal F P G M f.1 f.2.1 (G x) t

theorem gv_keep (q : Pt) (t : List Pt) (x : Id) (h : ¬ GDef P phi x q) :
    gv F P G M phi (q :: t) x = gv F P G M phi t x := by
  unfold gv
  cases hx : phi x with
  | none =>
    simp only
    obtain ⟨b, k⟩ := q
    cases k with
    | zero => rfl
    | succ k =>
      simp only [before]
      cases hi : (P.insts b)[k]? with
      | none => rfl
      | some i =>
        simp only
        have hne : i.result ≠ some x := fun e => h (.inl ⟨k, i, rfl, hi, e⟩)
        cases i with
        | store w y => rfl
        | load r w =>
          have : x ≠ r := fun e => hne (by rw [e]; rfl)
          simp [exec, this]
        | other r ops =>
          have : x ≠ r := fun e => hne (by rw [e]; rfl)
          simp [exec, this]
  | some f =>
    simp only
    obtain ⟨b, k⟩ := q
    cases k with
    | zero =>
      have : b ≠ f.1 := fun e => h (.inr ⟨rfl, f, hx, e.symm⟩)
      simp [phiVal, this]
    | succ k => rfl

theorem gv_append (u s : List Pt) (x : Id) (h : ∀ q ∈ u, ¬ GDef P phi x q) :
    gv F P G M phi (u ++ s) x = gv F P G M phi s x := by
  induction u with
  | nil => rfl
  | cons q u ih =>
    rw [List.cons_append, gv_keep q _ x (h q (List.mem_cons_self ..)),
      ih fun q' hq' => h q' (List.mem_cons_of_mem _ hq')]

/-- The variable holds the value of the id chosen for it. -/
theorem mem_eq (hV : Valid P fresh) (hC : Cert P fresh phi c E) (hU : ∀ v, G (P.undef v) = M v)
    {v : Var} {t : List Pt} (ht : Trace P t) : ∀ q s x, t = q :: s → reaching P E v q = some x →
    (before F P G M t).2 v = gv F P G M phi t x := by
  induction ht with
  | start =>
    intro q s x e hr
    cases e
    rw [reaching_zero] at hr
    have hx := hC.ent0 v x hr
    subst hx
    simp [gv, phi_none hC (hV.undef_id v).2, before, hU]
  | @step b k t h hk ih =>
    intro q s x e hr
    cases e
    obtain ⟨i, hi⟩ : ∃ i, (P.insts b)[k]? = some i := ⟨_, List.getElem?_eq_getElem hk⟩
    have hb := trace_order hV h (b, k) (List.mem_cons_self ..)
    by_cases hs : ∃ y, i = .store v y
    · obtain ⟨y, rfl⟩ := hs
      rw [reaching_store hi] at hr
      cases hr
      have hl := (hV.ids b hb _ (List.mem_of_getElem? hi) x (.inl (by simp [Inst.operands]))).2
      simp [gv, phi_none hC hl, before, hi, exec]
    · rw [reaching_keep hi (fun y e => hs ⟨y, e⟩)] at hr
      have hnd : ¬ GDef P phi x (b, k + 1) :=
        not_def_next hV hC (.step h hk) fun q'' _ hn => by
          rw [next_step_unique hn]; exact hr
      rw [gv_keep _ _ _ hnd, ← ih _ _ x rfl hr]
      simp only [before, hi]
      cases i with
      | store w y =>
        have : v ≠ w := fun e => hs ⟨y, by rw [e]⟩
        simp [exec, this]
      | load r w => rfl
      | other r ops => rfl
  | @edge b k t d h hk hp ih =>
    intro q s x e hr
    cases e
    rw [reaching_zero] at hr
    have hb := trace_order hV h (b, k) (List.mem_cons_self ..)
    have hd := hV.closed b hb d hp
    have hne : d ≠ P.entry := by
      rintro rfl; rw [hV.entry_preds] at hp; cases hp
    rcases hC.ent d v x hd hne hr with ⟨a, ha⟩ | hall
    · simp [gv, ha, phiVal, before]
    · have hnd : ¬ GDef P phi x (d, 0) :=
        not_def_next hV hC (.edge h hk hp) fun q'' hq hn => by
          cases hn with
          | edge hp' => exact hall _ hp' hq
      have := hall b hp hb
      rw [← hk] at this
      rw [gv_keep _ _ _ hnd, ← ih _ _ x rfl this]
      rfl

theorem load_site (hV : Valid P fresh) {b : Block} {k : Nat} {r : Id} {v : Var}
    (hi : (P.insts b)[k]? = some (.load r v)) : DefinedAt P r (b, k + 1) :=
  ⟨k, _, rfl, hi, rfl⟩

/-- Available on every trace to `q`. -/
def AvailAt (P : Prog) (phi : PhiMap) (x : Id) (q : Pt) : Prop :=
  ∀ t, Trace P (q :: t) → Avail P phi x (q :: t)

theorem load_lt (hV : Valid P fresh) {b : Block} (hb : b ∈ P.order) {k : Nat} {r : Id} {v : Var}
    (hi : (P.insts b)[k]? = some (.load r v)) : r < fresh :=
  defined_lt hV (q := (b, k + 1)) hb (load_site hV hi)

/-- Where a load has happened, the id in its place has been computed. -/
theorem avail_copy (hV : Valid P fresh) (hC : Cert P fresh phi c E) {r x : Id} (hr : c r = some x)
    {t : List Pt} {q0 : Pt} (ht : Trace P t) (hq0 : q0 ∈ t) (hd : GDef P phi r q0) :
    ∃ b k v u s, b ∈ P.order ∧ (P.insts b)[k]? = some (.load r v) ∧ q0 = (b, k + 1) ∧
      reaching P E v (b, k) = some x ∧ t = u ++ (b, k + 1) :: (b, k) :: s ∧ q0 ∉ u ∧
      Trace P ((b, k) :: s) := by
  obtain ⟨b, k, v, hb, hi⟩ := hC.c_load r x hr
  obtain ⟨y, hy, hre⟩ := hC.load b k r v hb hi
  rw [hr] at hy; cases hy
  have hq : q0 = (b, k + 1) :=
    gdef_unique hV hC (trace_order hV ht q0 hq0) hb hd (.inl (load_site hV hi))
  subst hq
  obtain ⟨u, s, e, hn⟩ := mem_split_last hq0
  have hs : Trace P ((b, k + 1) :: s) := trace_suffix u (e ▸ ht) (by simp)
  cases s with
  | nil => exact absurd (trace_one.1 hs) (by simp)
  | cons q s =>
    have h1 := trace_cons.1 hs
    have := next_step_unique h1.2
    subst this
    exact ⟨b, k, v, u, s, hb, hi, rfl, hre, e, hn, h1.1⟩

theorem copy_eq (hV : Valid P fresh) (hC : Cert P fresh phi c E) (hU : ∀ v, G (P.undef v) = M v)
    {r x : Id} (hr : c r = some x) {q : Pt} {t : List Pt} (ht : Trace P (q :: t))
    (ha : AvailAt P phi r q) :
    gv F P G M phi (q :: t) r = gv F P G M phi (q :: t) x ∧ AvailAt P phi x q := by
  have hglob : ¬ ∀ q : Pt, q.1 ∈ P.order → ¬ GDef P phi r q := by
    obtain ⟨b, k, v, hb, hi⟩ := hC.c_load r x hr
    exact fun h => h (b, k + 1) hb (.inl (load_site hV hi))
  constructor
  · obtain ⟨q0, hq0, hd⟩ := (ha t ht).resolve_right hglob
    obtain ⟨b, k, v, u, s, hb, hi, rfl, hre, e, hn, hs⟩ := avail_copy hV hC hr ht hq0 hd
    have hrl := load_lt hV hb hi
    have hT : Trace P ((b, k + 1) :: (b, k) :: s) := trace_suffix u (e ▸ ht) (by simp)
    have ho := trace_order hV ht
    -- the id is not computed again after the load
    have hx : ∀ q' ∈ u, ¬ GDef P phi x q' := by
      intro q' hq' hd'
      obtain ⟨u1, u0, eu, _⟩ := mem_split_last hq'
      have hmem : q' ∈ q :: t := by rw [e]; simp [hq']
      obtain ⟨w, s0, ew, hfirst⟩ := mem_split_first hmem
      have hs0 : Trace P (q' :: s0) := trace_suffix w (ew ▸ ht) (by simp)
      have hbig : Trace P (u1 ++ q' :: s0) := by
        apply trace_splice u1 (s := u0 ++ (b, k + 1) :: (b, k) :: s) _ hs0
        have := e ▸ ht
        rw [eu] at this
        simpa using this
      -- the spliced trace ends at the same point
      obtain ⟨t', et'⟩ : ∃ t', u1 ++ q' :: s0 = q :: t' := by
        cases u1 with
        | nil =>
          rw [eu] at e
          simp only [List.nil_append, List.cons_append, List.append_assoc] at e
          cases e
          exact ⟨s0, rfl⟩
        | cons a u1 =>
          rw [eu] at e
          simp only [List.cons_append, List.append_assoc] at e
          cases e
          exact ⟨_, rfl⟩
      have hav := ha t' (et' ▸ hbig)
      obtain ⟨q1, hq1, hd1⟩ := hav.resolve_right hglob
      have hoo := trace_order hV hbig
      have h1 : q1 = (b, k + 1) :=
        gdef_unique hV hC (hoo q1 (et' ▸ hq1)) hb hd1 (.inl (load_site hV hi))
      subst h1
      rw [← et'] at hq1
      rcases List.mem_append.1 hq1 with h | h
      · exact hn (by rw [eu]; simp [h])
      · rcases List.mem_cons.1 h with h | h
        · subst h
          exact hn hq'
        · have hts : Trace P s0 := by
            cases s0 with
            | nil => cases h
            | cons a s0 => exact (trace_cons.1 hs0).1
          obtain ⟨b2, k2, v2, u2, s2, hb2, hi2, e2, hre2, et2, _, hs2⟩ :=
            avail_copy hV hC hr hts h (.inl (load_site hV hi))
          cases e2
          rcases avail_reaching hV hC hs2 _ _ _ rfl hre2 with ⟨q3, hq3, hd3⟩ | hg
          · have hm3 : q3 ∈ s0 := by rw [et2]; simp at hq3 ⊢; right; right; exact hq3
            have : q3 = q' :=
              gdef_unique hV hC (trace_order hV hts q3 hm3) (hoo q' (by simp)) hd3 hd'
            subst this
            exact hfirst hm3
          · exact hg q' (hoo q' (by simp)) hd'
    have hr' : ∀ q' ∈ u, ¬ GDef P phi r q' := by
      intro q' hq' hd'
      have : q' = (b, k + 1) :=
        gdef_unique hV hC (ho q' (by rw [e]; simp [hq'])) hb hd' (.inl (load_site hV hi))
      subst this
      exact hn hq'
    have hnx : ¬ GDef P phi x (b, k + 1) :=
      not_def_next hV hC hT fun q'' _ hnn => by rw [next_step_unique hnn]; exact hre
    rw [e, gv_append u _ r hr', gv_append u _ x hx, gv_keep _ _ x hnx,
      ← mem_eq hV hC hU hs _ _ _ rfl hre]
    simp [gv, phi_none hC hrl, before, hi, exec]
  · intro t' ht'
    obtain ⟨q0, hq0, hd⟩ := (ha t' ht').resolve_right hglob
    obtain ⟨b, k, v, u, s, hb, hi, rfl, hre, e, hn, hs⟩ := avail_copy hV hC hr ht' hq0 hd
    exact (avail_reaching hV hC hs _ _ _ rfl hre).mono fun q hq => by
      rw [e]; simp at hq ⊢; right; right; exact hq

/-- Follow replaced loads. -/
inductive Chain (c : Id → Option Id) : Id → Id → Prop
  | done {x} : c x = none → Chain c x x
  | next {x y z} : c x = some y → Chain c y z → Chain c x z

theorem chain_end {x y : Id} (h : Chain c x y) : c y = none := by
  induction h with
  | done h => exact h
  | next _ _ ih => exact ih

theorem chain_eq (hV : Valid P fresh) (hC : Cert P fresh phi c E) (hU : ∀ v, G (P.undef v) = M v)
    {q : Pt} {t : List Pt} (ht : Trace P (q :: t)) {x y : Id} (h : Chain c x y) :
    AvailAt P phi x q → gv F P G M phi (q :: t) x = gv F P G M phi (q :: t) y := by
  induction h with
  | done => intro _; rfl
  | next hc _ ih =>
    intro ha
    have := copy_eq (F := F) hV hC hU hc ht ha
    rw [this.1, ih this.2]

/-- The output carries out the choices. -/
structure Carries (P : Prog) (phi : PhiMap) (c : Id → Option Id) (o : Out) : Prop where
  use : ∀ x, (∀ f, phi x ≠ some f) → Chain c x (o.use x)
  phis : ∀ x b v a p, phi x = some (b, v, a) → p ∈ P.preds b → p ∈ P.order →
    ∃ f y, o.phis.find? (fun f => f.1 == x && f.2.1 == b) = some f ∧ f.2.2.lookup p = some y ∧
      Chain c (a p) y
  only : ∀ f ∈ o.phis, ∃ v a, phi f.1 = some (f.2.1, v, a)

theorem after_eq (hV : Valid P fresh) (hC : Cert P fresh phi c E) (hU : ∀ v, G (P.undef v) = M v)
    {o : Out} (hO : Carries P phi c o) {t : List Pt} (ht : Trace P t) :
    ∀ y, c y = none → after F P o G t y = gv F P G M phi t y := by
  induction ht with
  | start =>
    intro y hy
    simp only [after, gv]
    cases hp : phi y with
    | none => rfl
    | some f =>
      have hne : P.entry ≠ f.1 := fun e => hC.phi_entry y f hp e.symm
      simp only [phiVal, if_neg hne]
  | @step b k t h hk ih =>
    intro y hy
    obtain ⟨i, hi⟩ : ∃ i, (P.insts b)[k]? = some i := ⟨_, List.getElem?_eq_getElem hk⟩
    have hb := trace_order hV h (b, k) (List.mem_cons_self ..)
    by_cases hd : GDef P phi y (b, k + 1)
    · rcases hd with ⟨k', i', e, hi', hr⟩ | ⟨h0, _⟩
      · cases e
        rw [hi] at hi'
        cases hi'
        have hl := (hV.ids b hb i (List.mem_of_getElem? hi) y (.inr hr)).2
        cases i with
        | store w x => cases hr
        | load r w =>
          cases hr
          obtain ⟨x, hx, _⟩ := hC.load b k y w hb hi
          rw [hx] at hy; cases hy
        | other r ops =>
          cases hr
          simp only [after, gv, phi_none hC hl, before, hi, exec', exec, if_true]
          congr 1
          apply List.map_congr_left
          intro x hx
          have hxl := (hV.ids b hb _ (List.mem_of_getElem? hi) x (.inl hx)).2
          have hpx := phi_none hC hxl
          have hch := hO.use x (by simp [hpx])
          have hav : AvailAt P phi x (b, k) := fun t' ht' => operand_avail hV hC ht' hi hx
          rw [ih _ (chain_end hch), ← chain_eq hV hC hU h hch hav]
          simp [gv, hpx]
      · cases h0
    · rw [gv_keep _ _ _ hd, ← ih y hy]
      simp only [after, hi]
      cases i with
      | store w x => rfl
      | load r w => rfl
      | other r ops =>
        have : y ≠ r := fun e => hd (.inl ⟨k, _, rfl, hi, by rw [e]; rfl⟩)
        simp [exec', this]
  | @edge b k t d h hk hp ih =>
    intro y hy
    have hb := trace_order hV h (b, k) (List.mem_cons_self ..)
    simp only [after, enter]
    cases hf : o.phis.find? (fun f => f.1 == y && f.2.1 == d) with
    | none =>
      simp only
      rw [ih y hy]
      have hd : ¬ GDef P phi y (d, 0) := by
        rintro (⟨k', _, e, _⟩ | ⟨_, ⟨d', v, a⟩, hph, rfl⟩)
        · cases e
        · obtain ⟨f, z, hf', _⟩ := hO.phis y _ v a b hph hp hb
          rw [hf] at hf'; cases hf'
      rw [gv_keep _ _ _ hd]
    | some f =>
      have hm := List.mem_of_find?_eq_some hf
      have hpr := List.find?_some hf
      simp at hpr
      obtain ⟨v, a, hph⟩ := hO.only f hm
      rw [hpr.1, hpr.2] at hph
      obtain ⟨f', z, hf', hz, hch⟩ := hO.phis y d v a b hph hp hb
      rw [hf] at hf'; cases hf'
      simp only [hz]
      have hre := hC.phi_arg y d v a hph b hp hb
      rw [← hk] at hre
      have hav : AvailAt P phi (a b) (b, k) := fun t' ht' => avail_reaching hV hC ht' _ _ _ rfl hre
      rw [ih _ (chain_end hch), ← chain_eq hV hC hU h hch hav,
        ← mem_eq hV hC hU h _ _ _ rfl hre]
      simp [gv, hph, phiVal]

/-- The values of all instructions, and what stands for a load, are the same. -/
theorem cert_right (hV : Valid P fresh) (hC : Cert P fresh phi c E) (hU : ∀ v, G (P.undef v) = M v)
    {o : Out} (hO : Carries P phi c o) {t : List Pt} (ht : Trace P t) :
    (∀ b ∈ P.order, ∀ r ops, Inst.other r ops ∈ P.insts b →
      after F P o G t r = (before F P G M t).1 r) ∧
    (∀ b k s x, t = (b, k) :: s → AvailAt P phi x (b, k) → x < fresh →
      after F P o G t (o.use x) = (before F P G M t).1 x) := by
  constructor
  · intro b hb r ops hm
    obtain ⟨k, hk⟩ := List.getElem?_of_mem hm
    have hd : DefinedAt P r (b, k + 1) := ⟨k, _, rfl, hk, rfl⟩
    have hl := defined_lt hV (q := (b, k + 1)) hb hd
    have hc : c r = none := by
      cases hc : c r with
      | none => rfl
      | some x =>
        obtain ⟨b', k', v, hb', hi⟩ := hC.c_load r x hc
        have := hV.unique r (b, k + 1) (b', k' + 1) hb hb' hd (load_site hV hi)
        cases this
        rw [hk] at hi
        cases hi
    rw [after_eq hV hC hU hO ht r hc]
    simp [gv, phi_none hC hl]
  · rintro b k s x rfl hav hl
    have hpx := phi_none hC hl
    have hch := hO.use x (by simp [hpx])
    rw [after_eq hV hC hU hO ht _ (chain_end hch), ← chain_eq hV hC hU ht hch hav]
    simp [gv, hpx]

end

end Verif.Ssa
