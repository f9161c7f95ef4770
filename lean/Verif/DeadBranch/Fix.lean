import Verif.DeadBranch.Trim

/-!
# Lemmas: phis of live blocks (C74)
-/

set_option linter.unusedSimpArgs false
set_option linter.unusedVariables false
set_option linter.unusedSectionVars false

namespace Verif.DeadBranch.Spec
open Verif.IfConv Verif.BlockMerge Verif.CodeSink Verif.BlockMerge.Spec
open Verif.CodeSink.Spec hiding Valid
open Verif.IfConv.Spec hiding Valid Right

variable {V M : Type} {S : Sem V M} {num : V → Nat} {fn F G : Fn} {A : Info} {L : List Lab}

theorem fn_ext {f g : Fn} (h1 : f.entry = g.entry) (h2 : f.labels = g.labels) (h3 : ∀ x, f.block x = g.block x) :
    f = g := by
  obtain ⟨a, b, c⟩ := f
  obtain ⟨a', b', c'⟩ := g
  simp only at h1 h2 h3
  rw [h1, h2, funext h3]

theorem deadCont_dead {x s} (h : deadCont F L x = some s) : x ∉ L := by
  intro hx
  unfold deadCont at h
  rw [if_pos (by simpa using hx)] at h
  cases h

/-! ### The values of a phi -/

theorem filter_keep (s : Lab) (φ : Phi) : ∀ (args : List (Id × Lab)),
    ((args.filterMap (keepArg F A L s φ)).filter fun x => edge L F s x.2) = args.filter fun x => edge L F s x.2
  | [] => rfl
  | x :: args => by
    have ih := filter_keep s φ args
    by_cases h1 : deadCont F L x.2 = some s ∧ φ.args.length > 2
    · have hx : x.2 ∉ L := deadCont_dead h1.1
      have hk : keepArg F A L s φ x = some (if A.isUndef x.1 then x.1 else A.undef φ.id, x.2) := by
        simp only [keepArg, if_pos h1]
      rw [List.filterMap_cons, hk]
      simp only
      rw [List.filter_cons_of_neg (by simp [edge, hx]), List.filter_cons_of_neg (by simp [edge, hx]), ih]
    · by_cases h2 : x.2 ∈ L ∧ s ∈ F.succs x.2
      · have hk : keepArg F A L s φ x = some x := by simp only [keepArg, if_neg h1, if_pos h2]
        rw [List.filterMap_cons, hk]
        simp only
        rw [List.filter_cons_of_pos (by simpa [edge] using h2), List.filter_cons_of_pos (by simpa [edge] using h2), ih]
      · have hk : keepArg F A L s φ x = none := by simp only [keepArg, if_neg h1, if_neg h2]
        rw [List.filterMap_cons, hk]
        simp only
        rw [List.filter_cons_of_neg (by simpa [edge] using h2), ih]

theorem filter_add (s : Lab) (φ : Phi) (args : List (Id × Lab)) :
    ((addBack F A L s φ args).filter fun x => edge L F s x.2) = args.filter fun x => edge L F s x.2 := by
  unfold addBack
  split
  · rename_i m c _
    split
    · rename_i h
      have hc : c ∉ L := by
        simp only [Bool.and_eq_true] at h
        obtain ⟨y, hy⟩ := Option.isSome_iff_exists.1 h.1.2
        exact deadCont_dead hy
      rw [List.filter_append]
      simp [edge, hc]
    · rfl
  · rfl

/-! ### One phi -/

theorem kill_succs (s : Lab) (d a : Id) (x : Lab) : (kill G s d a).succs x = G.succs x := by
  simp only [Fn.succs, kill, subBlock, subTerm_succs]
  split
  · rename_i h; rw [h]
  · rfl

theorem kill_merge (s : Lab) (d a : Id) (x : Lab) : ((kill G s d a).block x).merge = (G.block x).merge := by
  simp only [kill, subBlock]
  split
  · rename_i h; rw [h]
  · rfl

theorem set_succs (s : Lab) (d : Id) (args) (x : Lab) : (setArgs G s d args).succs x = G.succs x := by
  simp only [Fn.succs, setArgs]
  split
  · rename_i h; rw [h]
  · rfl

theorem set_merge (s : Lab) (d : Id) (args) (x : Lab) : ((setArgs G s d args).block x).merge = (G.block x).merge := by
  simp only [setArgs]
  split
  · rename_i h; rw [h]
  · rfl

theorem edge_congr {G' : Fn} (h : ∀ x, G'.succs x = G.succs x) : edge L G' = edge L G := by
  funext s p
  simp only [edge, h]

theorem trim_sub {G' : Fn} (h : ∀ x, G'.succs x = G.succs x) (d a : Id) (s : Lab) (φ : Phi) :
    trimPhi L G' s (subPhi d a φ) = subPhi d a (trimPhi L G s φ) := by
  simp only [trimPhi, subPhi, edge_congr h, List.filter_map, Function.comp_def]

theorem trim_kill (s : Lab) (d a : Id) : trim L (kill G s d a) =
    drop1 (trim L G) s d a (((trim L G).block s).phis.filter (·.id ≠ d)) := by
  refine fn_ext rfl rfl fun x => ?_
  have hs := kill_succs (G := G) s d a
  by_cases hx : x ∈ L
  · rw [trim_block hx]
    by_cases hxs : x = s
    · subst hxs
      simp only [drop1, kill, if_true, subBlock, trim_block hx, List.filter_map, List.map_map, Function.comp_def,
        trim_sub hs]
      congr 1
      refine List.map_congr_left fun φ _ => ?_
      exact trim_sub hs d a x φ
    · simp only [drop1, kill, if_neg hxs, subBlock, trim_block hx, List.map_map, Function.comp_def]
      congr 1
      refine List.map_congr_left fun φ _ => ?_
      exact trim_sub hs d a x φ
  · rw [trim_off hx]
    by_cases hxs : x = s
    · subst hxs
      simp [drop1, subBlock, trim_off hx, subTerm]
    · simp [drop1, if_neg hxs, subBlock, trim_off hx, subTerm]

theorem id_inj : ∀ {φs : List Phi}, (φs.map Phi.id).Nodup → ∀ {ψ φ}, ψ ∈ φs → φ ∈ φs → ψ.id = φ.id → ψ = φ
  | [], _, _, _, h, _, _ => by cases h
  | x :: φs, hn, ψ, φ, h1, h2, he => by
    simp only [List.map_cons, List.nodup_cons] at hn
    rcases List.mem_cons.1 h1 with e1 | k1 <;> rcases List.mem_cons.1 h2 with e2 | k2
    · rw [e1, e2]
    · rw [e1] at he; exact absurd (List.mem_map.2 ⟨φ, k2, he.symm⟩) hn.1
    · rw [e2] at he; exact absurd (List.mem_map.2 ⟨ψ, k1, he⟩) hn.1
    · exact id_inj hn.2 k1 k2 he

theorem trim_set {s : Lab} {φ : Phi} (hs : s ∈ L) (hφ : φ ∈ (G.block s).phis)
    (hn : ((G.block s).phis.map Phi.id).Nodup) {args : List (Id × Lab)}
    (ha : (args.filter fun x => edge L G s x.2) = φ.args.filter fun x => edge L G s x.2) :
    trim L (setArgs G s φ.id args) = trim L G := by
  refine fn_ext rfl rfl fun x => ?_
  have hsu := set_succs (G := G) s φ.id args
  have ht : ∀ ψ, trimPhi L (setArgs G s φ.id args) x ψ = trimPhi L G x ψ := by
    intro ψ; simp only [trimPhi, edge_congr hsu]
  by_cases hx : x ∈ L
  · rw [trim_block hx, trim_block hx]
    simp only [funext ht]
    by_cases hxs : x = s
    · subst hxs
      simp only [setArgs, if_true, List.map_map, Function.comp_def]
      congr 1
      refine List.map_congr_left fun ψ hψ => ?_
      by_cases he : ψ.id = φ.id
      · have : ψ = φ := id_inj hn hψ hφ he
        subst this
        simp only [if_true, trimPhi, ha]
      · rw [if_neg he]
    · simp only [setArgs, if_neg hxs]
  · rw [trim_off hx, trim_off hx]

theorem filter_id {φs : List Phi} {φ : Phi} (hn : (φs.map Phi.id).Nodup) {u v} (e : φs = u ++ φ :: v) :
    φs.filter (·.id ≠ φ.id) = u ++ v := by
  subst e
  rw [List.map_append, List.map_cons, List.nodup_append] at hn
  obtain ⟨h1, h2, h3⟩ := hn
  rw [List.filter_append, List.filter_cons_of_neg (by simp), List.filter_eq_self.2, List.filter_eq_self.2]
  · intro ψ hψ
    have : ψ.id ≠ φ.id := fun e => (List.nodup_cons.1 h2).1 (List.mem_map.2 ⟨ψ, hψ, e⟩)
    simpa using this
  · intro ψ hψ
    have : ψ.id ≠ φ.id := fun e => h3 ψ.id (List.mem_map.2 ⟨ψ, hψ, rfl⟩) φ.id (by simp) e
    simpa using this

/-- The phi is not killed for a value that comes from nowhere. -/
theorem live_arg (hv : Valid S (trim L G)) (hr : ∀ x ∈ L, Reachable (trim L G) x) {s : Lab} {φ : Phi} (hs : s ∈ L)
    (hφ : φ ∈ (G.block s).phis) : ∃ x ∈ φ.args, edge L G s x.2 = true := by
  have hm : trimPhi L G s φ ∈ ((trim L G).block s).phis := by
    rw [trim_block hs]; exact List.mem_map.2 ⟨φ, hφ, rfl⟩
  obtain ⟨l, hp⟩ := hr s hs
  generalize e : s :: l = l' at hp
  cases hp with
  | entry =>
    simp at e
    rw [e.1] at hm
    rw [hv.entry_phis] at hm
    cases hm
  | @next p b l hp hsu =>
    simp at e
    rw [← e.1] at hsu
    obtain ⟨x, hx, he⟩ := List.mem_map.1 (((hv.phi_preds s _ hm).2 p).2 hsu)
    obtain ⟨h1, h2⟩ := List.mem_filter.1 hx
    exact ⟨x, h1, h2⟩

theorem find_split {φs : List Phi} {d φ} (h : φs.find? (fun φ => decide (φ.id = d)) = some φ) :
    φ.id = d ∧ φ ∈ φs ∧ ∃ u v, φs = u ++ φ :: v := by
  have h1 := List.mem_of_find?_eq_some h
  exact ⟨by simpa using List.find?_some h, h1, List.append_of_mem h1⟩

/-- What one round does to the live part. -/
theorem fix_step (hv : Valid S (trim L G)) (hr : ∀ x ∈ L, Reachable (trim L G) x) {s : Lab} (hs : s ∈ L) (d : Id) :
    trim L (fixPhi A L G (s, d)) = trim L G ∨ ∃ b a t rest, First (trim L G) b s d a t rest ∧
      trim L (fixPhi A L G (s, d)) = drop1 (trim L G) s d a rest := by
  have hnod : ((G.block s).phis.map Phi.id).Nodup := by
    have := hv.phi_nodup s
    rwa [trim_ids, if_pos hs] at this
  unfold fixPhi
  simp only
  split
  · exact .inl rfl
  · rename_i φ hf
    obtain ⟨rfl, hφ, u, v, huv⟩ := find_split hf
    split
    · exact .inl rfl
    · have hargs := (filter_add (F := G) (A := A) (L := L) s φ _).trans (filter_keep (F := G) (A := A) (L := L) s φ φ.args)
      split
      · rename_i a p he
        rw [he] at hargs
        right
        obtain ⟨x, hx, hxe⟩ := live_arg hv hr hs hφ
        have hp : edge L G s p = true := by
          by_cases h : edge L G s p = true
          · exact h
          · rw [List.filter_cons_of_neg (a := (a, p)) h] at hargs
            have : x ∈ φ.args.filter (fun x => edge L G s x.2) := List.mem_filter.2 ⟨hx, hxe⟩
            rw [← hargs] at this
            cases this
        rw [List.filter_cons_of_pos (a := (a, p)) hp] at hargs
        have htr : trimPhi L G s φ = ⟨φ.id, φ.tyOk, [(a, p)]⟩ := by
          simp only [trimPhi, ← hargs, List.filter_nil]
        have hphis : ((trim L G).block s).phis = u.map (trimPhi L G s) ++ ⟨φ.id, φ.tyOk, [(a, p)]⟩ :: v.map (trimPhi L G s) := by
          rw [trim_block hs]
          simp only [huv, List.map_append, List.map_cons, htr]
        have hpl : p ∈ L ∧ s ∈ G.succs p := by simpa [edge] using hp
        have hpp := (hv.phi_preds s ⟨φ.id, φ.tyOk, [(a, p)]⟩ (by rw [hphis]; simp)).2
        refine ⟨p, a, φ.tyOk, u.map (trimPhi L G s) ++ v.map (trimPhi L G s),
          ⟨⟨mem_trim_succs.2 hpl, fun q hq => ?_, hr p hpl.1⟩, _, _, hphis, rfl⟩, ?_⟩
        · have := (hpp q).2 hq
          simpa using this
        · rw [trim_kill]
          congr 1
          exact filter_id (φ := ⟨φ.id, φ.tyOk, [(a, p)]⟩) (hv.phi_nodup s) hphis
      · rename_i args he
        exact .inl (trim_set hs hφ hnod hargs)

theorem fix_succs (x : Lab × Id) (y : Lab) : (fixPhi A L G x).succs y = G.succs y := by
  unfold fixPhi
  split
  · rfl
  · simp only
    split
    · rfl
    · split
      · exact kill_succs _ _ _ _
      · exact set_succs _ _ _ _

theorem fix_merge (x : Lab × Id) (y : Lab) : ((fixPhi A L G x).block y).merge = (G.block y).merge := by
  unfold fixPhi
  split
  · rfl
  · simp only
    split
    · rfl
    · split
      · exact kill_merge _ _ _ _
      · exact set_merge _ _ _ _

theorem fix_rest (x : Lab × Id) : (fixPhi A L G x).entry = G.entry ∧ (fixPhi A L G x).labels = G.labels := by
  unfold fixPhi
  split
  · exact ⟨rfl, rfl⟩
  · simp only
    split
    · exact ⟨rfl, rfl⟩
    · split <;> exact ⟨rfl, rfl⟩

/-! ### All phis -/

/-- Configurations of two functions that differ in the ids `X`. -/
structure Twin (S : Sem V M) (X : Id → Prop) (F G : Fn) (c c' : Config V M) : Prop where
  block : c'.block = c.block
  mem : c'.mem = c.mem
  goes : ∀ y, Goes S c'.env c'.mem (G.block c'.block).term y ↔ Goes S c.env c.mem (F.block c.block).term y
  env : ∀ x, ¬ X x → c'.env x = c.env x
  reads : (termReads (G.block c'.block).term).map c'.env = (termReads (F.block c.block).term).map c.env

theorem Twin.refl {X : Id → Prop} (c : Config V M) : Twin S X F F c c :=
  ⟨rfl, rfl, fun _ => Iff.rfl, fun _ _ => rfl, rfl⟩

theorem Twin.trans {X Y Z : Id → Prop} {f1 f2 f3 : Fn} {c1 c2 c3 : Config V M} (h : Twin S X f1 f2 c1 c2)
    (h' : Twin S Y f2 f3 c2 c3) (hz : ∀ x, X x ∨ Y x → Z x) : Twin S Z f1 f3 c1 c3 :=
  ⟨h'.block.trans h.block, h'.mem.trans h.mem, fun y => (h'.goes y).trans (h.goes y),
    fun x hx => (h'.env x (fun h => hx (hz x (.inr h)))).trans (h.env x (fun h => hx (hz x (.inl h)))),
    h'.reads.trans h.reads⟩

def phiIds (F : Fn) (x : Id) : Prop := ∃ b, x ∈ (F.block b).phis.map Phi.id

/-- Runs are the same but for phis that are gone. -/
structure Runs (S : Sem V M) (F G : Fn) : Prop where
  forth : ∀ l c, Reach S F l c → ∃ c', Reach S G l c' ∧ Twin S (fun x => phiIds F x ∧ ¬ phiIds G x) F G c c'
  back : ∀ l c', Reach S G l c' → ∃ c, Reach S F l c ∧ Twin S (fun x => phiIds F x ∧ ¬ phiIds G x) F G c c'
  ids : ∀ x, phiIds G x → phiIds F x

theorem Runs.refl : Runs S F F :=
  ⟨fun l c h => ⟨c, h, .refl c⟩, fun l c h => ⟨c, h, .refl c⟩, fun _ h => h⟩

theorem Runs.trans {f1 f2 f3 : Fn} (h : Runs S f1 f2) (h' : Runs S f2 f3) : Runs S f1 f3 := by
  have hz : ∀ x, ((phiIds f1 x ∧ ¬ phiIds f2 x) ∨ (phiIds f2 x ∧ ¬ phiIds f3 x)) → phiIds f1 x ∧ ¬ phiIds f3 x := by
    rintro x (⟨h1, h2⟩ | ⟨h1, h2⟩)
    · exact ⟨h1, fun h3 => h2 (h'.ids x h3)⟩
    · exact ⟨h.ids x h1, h2⟩
  refine ⟨fun l c hr => ?_, fun l c hr => ?_, fun x hx => h.ids x (h'.ids x hx)⟩
  · obtain ⟨c', h1, h2⟩ := h.forth l c hr
    obtain ⟨c'', h3, h4⟩ := h'.forth l c' h1
    exact ⟨c'', h3, h2.trans h4 hz⟩
  · obtain ⟨c', h1, h2⟩ := h'.back l c hr
    obtain ⟨c'', h3, h4⟩ := h.back l c' h1
    exact ⟨c'', h3, h4.trans h2 hz⟩

theorem first_twin {b s d a t rest} (g : First F b s d a t rest) (hv : Valid S F) {l} {c c' : Config V M}
    (hr : Reach S F l c) (h : Alike d c c') :
    Twin S (fun x => phiIds F x ∧ ¬ phiIds (drop1 F s d a rest) x) F (drop1 F s d a rest) c c' := by
  have ht := g.at_term hv hr h
  refine ⟨h.block, h.mem, fun y => ?_, fun x hx => h.env x ?_, ?_⟩
  · rw [h.block, h.mem, drop_term]
    exact goes_sub ht
  · rintro rfl
    refine hx ⟨⟨s, (g.perm.map Phi.id).mem_iff.2 (by simp)⟩, ?_⟩
    rintro ⟨y, hy⟩
    exact ((g.mem_defs hv).1 (List.mem_append_left _ hy)).1 rfl
  · rw [h.block, drop_term, termReads_sub, List.map_map]
    exact List.map_congr_left ht

theorem first_runs {b s d a t rest} (g : First F b s d a t rest) (hv : Valid S F) :
    Runs S F (drop1 F s d a rest) := by
  obtain ⟨h1, h2⟩ := g.runs hv
  refine ⟨fun l c hr => ?_, fun l c hr => ?_, ?_⟩
  · obtain ⟨c', h3, h4⟩ := h1 l c hr
    exact ⟨c', h3, first_twin g hv hr h4⟩
  · obtain ⟨c', h3, h4⟩ := h2 l c hr
    exact ⟨c', h3, first_twin g hv h3 h4⟩
  · rintro x ⟨y, hy⟩
    refine ⟨y, ?_⟩
    obtain ⟨ψ, h3, h4⟩ := List.mem_map.1 hy
    obtain ⟨φ, h5, h6⟩ := g.mem_phis h3
    exact List.mem_map.2 ⟨φ, h5, by rw [← h4, h6]; rfl⟩

/-- What stays the same through the rounds. -/
structure Inv (S : Sem V M) (L : List Lab) (F G : Fn) : Prop where
  entry : G.entry = F.entry
  labels : G.labels = F.labels
  succs : ∀ x, G.succs x = F.succs x
  merge : ∀ x, (G.block x).merge = (F.block x).merge
  valid : Valid S (trim L G)
  reach : ∀ x ∈ L, Reachable (trim L G) x
  runs : Runs S (trim L F) (trim L G)
  defs : ∀ b x, x ∈ defs ((trim L G).block b) → x ∈ defs ((trim L F).block b)

theorem Inv.step (h : Inv S L F G) {x : Lab × Id} (hx : x.1 ∈ L) : Inv S L F (fixPhi A L G x) := by
  obtain ⟨s, d⟩ := x
  have base := fix_rest (A := A) (L := L) (G := G) (s, d)
  have key : Valid S (trim L (fixPhi A L G (s, d))) ∧ (∀ x ∈ L, Reachable (trim L (fixPhi A L G (s, d))) x) ∧
      Runs S (trim L G) (trim L (fixPhi A L G (s, d))) ∧
      ∀ b x, x ∈ Verif.IfConv.Spec.defs ((trim L (fixPhi A L G (s, d))).block b) →
        x ∈ Verif.IfConv.Spec.defs ((trim L G).block b) := by
    rcases fix_step (A := A) h.valid h.reach hx d with e | ⟨b, a, t, rest, g, e⟩
    · rw [e]; exact ⟨h.valid, h.reach, .refl, fun _ _ h => h⟩
    · rw [e]; exact ⟨g.valid h.valid, fun x hx => drop_reachable.2 (h.reach x hx), first_runs g h.valid,
        fun b x hx => ((g.mem_defs h.valid).1 hx).2⟩
  exact ⟨base.1.trans h.entry, base.2.trans h.labels, fun y => (fix_succs _ y).trans (h.succs y),
    fun y => (fix_merge _ y).trans (h.merge y), key.1, key.2.1, h.runs.trans key.2.2.1,
    fun b x hx => h.defs b x (key.2.2.2 b x hx)⟩

theorem Inv.steps : ∀ {xs : List (Lab × Id)} {G}, Inv S L F G → (∀ x ∈ xs, x.1 ∈ L) →
    Inv S L F (xs.foldl (fixPhi A L) G)
  | [], _, h, _ => h
  | x :: xs, _, h, hx => (h.step (hx x (by simp))).steps fun y hy => hx y (List.mem_cons_of_mem _ hy)

theorem inv_fixed (hv : Valid S fn) :
    Inv S (live fn A) (simplified fn A) (fixPhis A (live fn A) (simplified fn A)) := by
  refine Inv.steps ⟨rfl, rfl, fun _ => rfl, fun _ => rfl, simp_valid hv, fun x hx => ?_, .refl, fun _ _ h => h⟩ fun x hx => ?_
  · exact (simp_closed hv.toBase).reachable.2 ((live_iff (A := A) hv.labels).2.2 x hx)
  · obtain ⟨s, h1, h2⟩ := List.mem_flatMap.1 hx
    obtain ⟨φ, _, rfl⟩ := List.mem_map.1 h2
    simpa using (List.mem_filter.1 h1).2

/-! ### Erasing -/

theorem trim_erase : trim L (erase L G) = trim L G := by
  refine fn_ext rfl ?_ fun x => ?_
  · simp only [trim, erase, List.filter_filter]
    refine List.filter_congr fun x _ => ?_
    by_cases h : x ∈ L <;> simp [h]
  · by_cases hx : x ∈ L
    · rw [trim_block hx, trim_block hx]
      simp only [erase, if_pos hx]
      congr 1
      refine List.map_congr_left fun φ _ => ?_
      simp only [trimPhi]
      congr 1
      refine List.filter_congr fun y _ => ?_
      simp only [edge]
      refine decide_eq_decide.2 ⟨fun h => ⟨h.1, ?_⟩, fun h => ⟨h.1, ?_⟩⟩
      · have := h.2
        simpa [Fn.succs, if_pos h.1] using this
      · have := h.2
        simpa [Fn.succs, if_pos h.1] using this
    · rw [trim_off hx, trim_off hx]

theorem erase_succs {x} (h : x ∈ L) : (erase L G).succs x = G.succs x := by
  simp only [Fn.succs, erase, if_pos h]

theorem erase_closed (h : Closed L G) : Closed L (erase L G) :=
  ⟨h.entry, fun x hx y hy => h.next x hx y (by rwa [erase_succs hx] at hy)⟩

theorem fixed_closed (hv : Valid S fn) : Closed (live fn A) (fixPhis A (live fn A) (simplified fn A)) := by
  have hi := inv_fixed (A := A) hv
  have hc := simp_closed (A := A) hv.toBase
  exact ⟨by rw [hi.entry]; exact hc.entry, fun x hx y hy => hc.next x hx y (by rwa [hi.succs] at hy)⟩

theorem erase_ids (x : Id) : phiIds (trim L (erase L G)) x ↔ phiIds (erase L G) x := by
  unfold phiIds
  refine exists_congr fun b => ?_
  rw [trim_ids]
  by_cases h : b ∈ L
  · rw [if_pos h]
  · rw [if_neg h]
    simp only [erase, if_neg h]
    cases deadCont G L b <;> simp

end Verif.DeadBranch.Spec
