import Verif.ScalarEvo.Spec

set_option linter.unusedSimpArgs false
set_option linter.unusedVariables false

namespace Verif.ScalarEvo

open Spec

/-! ## Results -/

theorem i64_ok {x y : Int} (h : i64 x = .ok y) : y = x := by
  unfold i64 at h
  split at h <;> simp_all

theorem bind_ok {α β : Type} {x : Except Err α} {f : α → Except Err β} {b : β}
    (h : (x >>= f) = .ok b) : ∃ a, x = .ok a ∧ f a = .ok b := by
  cases x with
  | error e => simp [bind, Except.bind] at h
  | ok a => exact ⟨a, rfl, h⟩

theorem pure_ok {α : Type} {a b : α} (h : (pure a : Except Err α) = .ok b) : a = b := by
  simpa [pure, Except.pure] using h

theorem ok_ok {α : Type} {a b : α} (h : (Except.ok a : Except Err α) = .ok b) : a = b := by
  simpa using h

/-! ## Sums -/

theorem evalSum_append (e : Env) (xs ys : List Node) :
    evalSum e (xs ++ ys) = evalSum e xs + evalSum e ys := by
  induction xs with
  | nil => simp [evalSum]
  | cons x xs ih => simp [evalSum, ih, Int.add_assoc]

theorem evalSum_addChild (o : Order) (e : Env) (c : Node) (cs : List Node) :
    evalSum e (addChild o c cs) = eval e c + evalSum e cs := by
  induction cs with
  | nil => simp [addChild, evalSum]
  | cons d ds ih =>
    unfold addChild
    split
    · simp [evalSum, ih]; omega
    · simp [evalSum]

theorem mem_addChild (o : Order) (c x : Node) (cs : List Node) :
    x ∈ addChild o c cs ↔ x = c ∨ x ∈ cs := by
  induction cs with
  | nil => simp [addChild]
  | cons d ds ih =>
    unfold addChild
    split
    · simp [ih]; grind
    · simp

theorem length_addChild (o : Order) (c : Node) (cs : List Node) :
    (addChild o c cs).length = cs.length + 1 := by
  induction cs with
  | nil => simp [addChild]
  | cons d ds ih =>
    unfold addChild
    split <;> simp [ih]

theorem evalSum_addAll (o : Order) (e : Env) (ns cs : List Node) :
    evalSum e (addAll o ns cs) = evalSum e ns + evalSum e cs := by
  induction ns generalizing cs with
  | nil => simp [addAll, evalSum]
  | cons n ns ih => simp [addAll, ih, evalSum_addChild, evalSum]; omega

theorem mem_addAll (o : Order) (x : Node) (ns cs : List Node) :
    x ∈ addAll o ns cs ↔ x ∈ ns ∨ x ∈ cs := by
  induction ns generalizing cs with
  | nil => simp [addAll]
  | cons n ns ih => simp [addAll, ih, mem_addChild]; grind

theorem eval_wrap (e : Env) (cs : List Node) : eval e (wrap cs) = evalSum e cs := by
  unfold wrap
  split <;> simp [eval, evalSum]

/-! ## Predicates on lists -/

theorem recFreeList_iff (cs : List Node) : RecFreeList cs ↔ ∀ c ∈ cs, RecFree c := by
  induction cs with
  | nil => simp [RecFreeList]
  | cons c cs ih => simp [RecFreeList, ih]

theorem affineList_iff (cs : List Node) : AffineList cs ↔ ∀ c ∈ cs, Affine c := by
  induction cs with
  | nil => simp [AffineList]
  | cons c cs ih => simp [AffineList, ih]

theorem supportedList_iff (b : Bool) (cs : List Node) :
    SupportedList b cs ↔ ∀ c ∈ cs, Supported b c := by
  induction cs with
  | nil => simp [SupportedList]
  | cons c cs ih => simp [SupportedList, ih]

mutual
theorem affine_recFree : ∀ n : Node, Affine n → RecFree n
  | .const _, _ => trivial
  | .unknown _, _ => trivial
  | .recur .., h => h.elim
  | .add cs, h => affineList_recFree cs h
  | .mul a b, h => by
      rcases h with ⟨v, i, rfl, rfl⟩ | ⟨v, i, rfl, rfl⟩ <;> exact ⟨trivial, trivial⟩
  | .neg a, h => affine_recFree a h
  | .cant, h => h.elim
theorem affineList_recFree : ∀ cs : List Node, AffineList cs → RecFreeList cs
  | [], _ => trivial
  | c :: cs, h => ⟨affine_recFree c h.1, affineList_recFree cs h.2⟩
end

mutual
theorem affine_supported : ∀ (n : Node) (b : Bool), Affine n → Supported b n
  | .const _, _, _ => trivial
  | .unknown _, _, _ => trivial
  | .recur .., _, h => h.elim
  | .add cs, b, h => affineList_supported cs b h
  | .mul a b, _, h => by
      rcases h with ⟨v, i, rfl, rfl⟩ | ⟨v, i, rfl, rfl⟩
      · exact .inl ⟨v, rfl, trivial⟩
      · exact .inr (.inl ⟨v, rfl, trivial⟩)
  | .neg a, b, h => affine_supported a (!b) h
  | .cant, _, h => h.elim
theorem affineList_supported : ∀ (cs : List Node) (b : Bool), AffineList cs → SupportedList b cs
  | [], _, _ => trivial
  | c :: cs, b, h => ⟨affine_supported c b h.1, affineList_supported cs b h.2⟩
end

/-! ## Creating nodes -/

theorem eval_createNegation (e : Env) {n m : Node} (hn : n ≠ .cant)
    (h : createNegation n = .ok m) : eval e m = -eval e n := by
  unfold createNegation at h
  split at h
  · exact (hn rfl).elim
  · obtain ⟨v, hv, h⟩ := bind_ok h
    cases pure_ok h; simp [eval, i64_ok hv]
  · cases ok_ok h; simp [eval]

theorem eval_createMultiply (e : Env) {a b m : Node} (ha : a ≠ .cant) (hb : b ≠ .cant)
    (h : createMultiply a b = .ok m) : eval e m = eval e a * eval e b := by
  unfold createMultiply at h
  split at h
  · rename_i hc
    cases a <;> cases b <;> simp_all [Node.isCant]
  · split at h
    · obtain ⟨v, hv, h⟩ := bind_ok h
      cases pure_ok h; simp [eval, i64_ok hv]
    · cases ok_ok h; simp [eval]

theorem eval_createAdd (o : Order) (e : Env) {a b m : Node} (ha : a ≠ .cant) (hb : b ≠ .cant)
    (h : createAdd o a b = .ok m) : eval e m = eval e a + eval e b := by
  unfold createAdd at h
  split at h
  · obtain ⟨v, hv, h⟩ := bind_ok h
    cases pure_ok h; simp [eval, i64_ok hv]
  · split at h
    · rename_i hc
      cases a <;> cases b <;> simp_all [Node.isCant]
    · cases ok_ok h; simp [eval, evalSum_addChild, evalSum]; omega

theorem createNegation_ne_cant {n m : Node} (hn : n ≠ .cant)
    (h : createNegation n = .ok m) : m ≠ .cant := by
  unfold createNegation at h
  split at h
  · exact (hn rfl).elim
  · obtain ⟨v, hv, h⟩ := bind_ok h
    cases pure_ok h; simp
  · cases ok_ok h; simp

theorem eval_createSubtraction (o : Order) (e : Env) {a b m : Node} (ha : a ≠ .cant)
    (hb : b ≠ .cant) (h : createSubtraction o a b = .ok m) :
    eval e m = eval e a - eval e b := by
  unfold createSubtraction at h
  split at h
  · obtain ⟨v, hv, h⟩ := bind_ok h
    cases pure_ok h; simp [eval, i64_ok hv]
  · obtain ⟨v, hv, h⟩ := bind_ok h
    rw [eval_createAdd o e ha (createNegation_ne_cant hb hv) h, eval_createNegation e hb hv]
    omega

/-! ## Gathering terms -/

/-- The value of gathered terms. -/
def termSum (e : Env) : List (Node × Int) → Int
  | [] => 0
  | (t, v) :: rest => v * eval e t + termSum e rest

/-- How often a term was counted. -/
def look (t : Node) : List (Node × Int) → Int
  | [] => 0
  | (s, w) :: rest => if s = t then w else look t rest

theorem look_absent (t : Node) : ∀ ts : List (Node × Int), (∀ p ∈ ts, p.1 ≠ t) → look t ts = 0
  | [], _ => rfl
  | (s, w) :: rest, h => by
    have h1 := h (s, w) (by simp)
    simp only at h1
    simp [look, h1, look_absent t rest (fun p hp => h p (by simp [hp]))]

theorem look_mem {t : Node} {v : Int} : ∀ {ts : List (Node × Int)},
    (ts.map (·.1)).Nodup → (t, v) ∈ ts → look t ts = v
  | (s, w) :: rest, hd, h => by
    simp only [List.map_cons, List.nodup_cons] at hd
    rcases List.mem_cons.1 h with h | h
    · cases h; simp [look]
    · have : s ≠ t := fun hc => hd.1 (by subst hc; exact List.mem_map.2 ⟨_, h, rfl⟩)
      simp [look, this, look_mem hd.2 h]

theorem addTerm_spec (o : Order) (t : Node) (v : Int) :
    ∀ (ts : List (Node × Int)) {ts' : List (Node × Int)}, addTerm o t v ts = .ok ts' →
      (ts.map (·.1)).Nodup →
      (∀ e, termSum e ts' = termSum e ts + v * eval e t) ∧
      (∀ s, look s ts' = look s ts + if t = s then v else 0) ∧
      (ts'.map (·.1)).Nodup ∧
      (∀ s, s ∈ ts'.map (·.1) ↔ s = t ∨ s ∈ ts.map (·.1))
  | [], ts', h, _ => by
    cases ok_ok h
    refine ⟨fun e => by simp [termSum], fun s => by simp [look], by simp, by simp⟩
  | (s, w) :: rest, ts', h, hd => by
    simp only [List.map_cons, List.nodup_cons] at hd
    unfold addTerm at h
    split at h
    · rename_i heq
      subst heq
      obtain ⟨x, hx, h⟩ := bind_ok h
      cases pure_ok h
      cases i64_ok hx
      refine ⟨fun e => ?_, fun s' => ?_, by simpa using hd, by simp⟩
      · simp only [termSum]; rw [Int.add_mul]; omega
      · simp only [look]; split <;> simp
    · rename_i hne
      split at h
      · rename_i hc
        cases ok_ok h
        refine ⟨fun e => by simp [termSum]; omega, fun s' => ?_, ?_, by simp⟩
        · simp only [look]
          by_cases h1 : t = s'
          · subst h1
            simp [hne, look_absent t rest hc.2]
          · simp [h1]
        · simp only [List.map_cons, List.nodup_cons, List.mem_cons, not_or]
          refine ⟨⟨fun hc' => hne hc'.symm, fun hm => ?_⟩, hd⟩
          obtain ⟨p, hp, hpe⟩ := List.mem_map.1 hm
          exact hc.2 p hp hpe
      · obtain ⟨x, hx, h⟩ := bind_ok h
        cases pure_ok h
        obtain ⟨h1, h2, h3, h4⟩ := addTerm_spec o t v rest hx hd.2
        refine ⟨fun e => by simp [termSum, h1]; omega, fun s' => ?_, ?_, ?_⟩
        · simp only [look]
          by_cases hs : s = s'
          · subst hs; simp [Ne.symm hne]
          · simp [hs, h2]
        · simp only [List.map_cons, List.nodup_cons]
          exact ⟨fun hm => by
            rcases (h4 s).1 hm with h5 | h5
            · exact hne h5
            · exact hd.1 h5, h3⟩
        · intro s'
          simp only [List.map_cons, List.mem_cons, h4]
          grind


theorem splitMultiply_some {o : Order} {a b t : Node} {v : Int}
    (h : splitMultiply o a b = some (t, v)) :
    t.isTerm = true ∧ ((a = .const v ∧ b = t) ∨ (b = .const v ∧ a = t)) := by
  unfold splitMultiply at h
  simp only [addChild] at h
  split at h
  · rename_i x y heq
    split at heq
    · cases heq
      cases a <;> cases b <;> simp [Node.isTerm] at h <;> obtain ⟨rfl, rfl⟩ := h <;>
        simp [Node.isTerm]
    · cases heq
      cases a <;> cases b <;> simp [Node.isTerm] at h <;> obtain ⟨rfl, rfl⟩ := h <;>
        simp [Node.isTerm]
  · cases h

theorem splitMultiply_const_left (o : Order) {t : Node} (v : Int) (ht : t.isTerm = true) :
    splitMultiply o (.const v) t = some (t, v) := by
  unfold splitMultiply
  simp only [addChild]
  cases t <;> simp [Node.isTerm] at ht
  all_goals
    split
    · rename_i heq
      split at heq <;> cases heq <;> simp [Node.isTerm]
    · rename_i heq
      split at heq <;> exact (heq _ _ rfl).elim

theorem splitMultiply_const_right (o : Order) {t : Node} (v : Int) (ht : t.isTerm = true) :
    splitMultiply o t (.const v) = some (t, v) := by
  unfold splitMultiply
  simp only [addChild]
  cases t <;> simp [Node.isTerm] at ht
  all_goals
    split
    · rename_i heq
      split at heq <;> cases heq <;> simp [Node.isTerm]
    · rename_i heq
      split at heq <;> exact (heq _ _ rfl).elim

theorem term_isTerm {t : Node} (h : Term t) : t.isTerm = true := by
  cases t <;> simp_all [Term, Node.isTerm]

theorem recFree_term {t : Node} (ht : t.isTerm = true) (h : RecFree t) : Term t := by
  cases t <;> simp [Node.isTerm] at ht
  · trivial
  · exact h.elim

theorem slope_mul_right (e : Env) (l : Nat) (a : Node) (v : Int) :
    slope e l (.mul a (.const v)) = v * slope e l a := by
  cases a <;> simp [slope]

mutual
theorem slope_recFree (e : Env) (l : Nat) : ∀ n : Node, RecFree n → slope e l n = 0
  | .const _, _ => rfl
  | .unknown _, _ => rfl
  | .recur .., h => h.elim
  | .add cs, h => by simp [slope, slopeSum_recFree e l cs h]
  | .mul a b, h => by
      have ha := slope_recFree e l a h.1
      have hb := slope_recFree e l b h.2
      unfold slope
      split <;> simp_all
  | .neg a, h => by simp [slope, slope_recFree e l a h]
  | .cant, h => h.elim
theorem slopeSum_recFree (e : Env) (l : Nat) :
    ∀ cs : List Node, RecFreeList cs → slopeSum e l cs = 0
  | [], _ => rfl
  | c :: cs, h => by
      simp [slopeSum, slope_recFree e l c h.1, slopeSum_recFree e l cs h.2]
end

theorem count_mul_left (t : Node) (v : Int) (x : Node) :
    count t (.mul (.const v) x) = if x = t then v else 0 := by simp [count]

theorem count_mul_right (t : Node) (v : Int) {x : Node} (hx : x.isTerm = true) :
    count t (.mul x (.const v)) = if x = t then v else 0 := by
  cases x <;> simp_all [count, Node.isTerm]

theorem count_opaque {o : Order} {a b t : Node} (ht : t.isTerm = true)
    (h : splitMultiply o a b = none) : count t (.mul a b) = 0 := by
  unfold count
  split
  · rename_i v x
    split
    · rename_i heq; subst heq; rw [splitMultiply_const_left o _ ht] at h; cases h
    · rfl
  · rename_i x v hne
    split
    · rename_i heq; subst heq; rw [splitMultiply_const_right o v ht] at h; cases h
    · rfl
  · rfl

/-- The slope of gathered terms. -/
def termSlope (e : Env) (l : Nat) : List (Node × Int) → Int
  | [] => 0
  | (t, v) :: rest => v * slope e l t + termSlope e l rest

theorem addTerm_slope (o : Order) (t : Node) (v : Int) (e : Env) (l : Nat) :
    ∀ (ts : List (Node × Int)) {ts' : List (Node × Int)}, addTerm o t v ts = .ok ts' →
      termSlope e l ts' = termSlope e l ts + v * slope e l t
  | [], ts', h => by cases ok_ok h; simp [termSlope]
  | (s, w) :: rest, ts', h => by
    unfold addTerm at h
    split at h
    · rename_i heq
      subst heq
      obtain ⟨x, hx, h⟩ := bind_ok h
      cases pure_ok h
      cases i64_ok hx
      simp only [termSlope]; rw [Int.add_mul]; omega
    · split at h
      · cases ok_ok h; simp [termSlope]; omega
      · obtain ⟨x, hx, h⟩ := bind_ok h
        cases pure_ok h
        simp [termSlope, addTerm_slope o t v e l rest hx]; omega

/-- `-1` below an odd number of negations. -/
def sgn (b : Bool) : Int := if b then -1 else 1

theorem sgn_not (b : Bool) : sgn (!b) = -sgn b := by cases b <;> rfl

/-- The value of what was gathered. -/
def Acc.val (e : Env) (a : Acc) : Int := evalSum e a.kept + a.const + termSum e a.terms

/-- What gathering the sum `n` with a sign does. -/
structure Gathers (acc acc' : Acc) (s : Int) (value : Env → Int) (cnt : Node → Int)
    (slp : Env → Nat → Int) (R : Prop) : Prop where
  val : ∀ e, acc'.val e = acc.val e + s * value e
  look : ∀ t : Node, t.isTerm = true → look t acc'.terms = look t acc.terms + s * cnt t
  slope : ∀ e l, termSlope e l acc'.terms = termSlope e l acc.terms + s * slp e l
  nodup : (acc'.terms.map (·.1)).Nodup
  keys : ∀ t ∈ acc'.terms.map (·.1), t ∈ acc.terms.map (·.1) ∨ (Term t ∧ (R → RecFree t))
  kept : ∀ c ∈ acc'.kept, c ∈ acc.kept ∨ (RecFree c ∧ ∃ a b, c = .mul a b)

theorem gathers_term {o : Order} {acc : Acc} {t : Node} {w s v : Int} {ts : List (Node × Int)}
    (hd : (acc.terms.map (·.1)).Nodup) (hw : w = s * v) (h : addTerm o t w acc.terms = .ok ts)
    {R : Prop} (ht : Term t) (hr : R → RecFree t) :
    Gathers acc { acc with terms := ts } s (fun e => v * eval e t)
      (fun u => if t = u then v else 0) (fun e l => v * slope e l t) R := by
  subst hw
  obtain ⟨h1, h2, h3, h4⟩ := addTerm_spec o t _ acc.terms h hd
  refine ⟨fun e => ?_, fun u _ => ?_, fun e l => ?_, h3, fun u hu => ?_, fun c hc => .inl hc⟩
  · simp only [Acc.val, h1, Int.mul_assoc]; omega
  · simp only [h2]; split <;> simp
  · simp only [addTerm_slope o t _ e l acc.terms h, Int.mul_assoc]
  · rcases (h4 u).1 hu with rfl | h5
    · exact .inr ⟨ht, hr⟩
    · exact .inl h5

mutual
theorem gather_spec (o : Order) : ∀ (n : Node) (acc acc' : Acc) (b : Bool),
    gather o acc n b = .ok acc' → Supported b n → (acc.terms.map (·.1)).Nodup →
    Gathers acc acc' (sgn b) (fun e => eval e n) (fun t => count t n) (fun e l => slope e l n)
      (RecFree n)
  | .const v, acc, acc', b, h, _, hd => by
    unfold gather at h
    obtain ⟨x, hx, h⟩ := bind_ok h
    obtain ⟨y, hy, h⟩ := bind_ok h
    cases pure_ok h
    cases i64_ok hx
    cases i64_ok hy
    refine ⟨fun e => ?_, fun t _ => by simp [count], fun e l => by simp [slope], hd,
      fun t ht => .inl ht, fun c hc => .inl hc⟩
    have : v * (if b = true then -1 else 1) = sgn b * v := by
      rw [Int.mul_comm]; rfl
    simp only [Acc.val, eval, this]; omega
  | .unknown i, acc, acc', b, h, hs, hd => by
    unfold gather at h
    obtain ⟨x, hx, h⟩ := bind_ok h
    cases pure_ok h
    have := gathers_term (v := 1) (s := sgn b) hd (by simp [sgn]) hx
      (R := RecFree (.unknown i)) trivial id
    simpa [count, slope, eq_comm] using this
  | .recur l off coef, acc, acc', b, h, hs, hd => by
    unfold gather at h
    obtain ⟨x, hx, h⟩ := bind_ok h
    cases pure_ok h
    have := gathers_term (v := 1) (s := sgn b) hd (by simp [sgn]) hx
      (R := RecFree (.recur l off coef)) (show Term (.recur l off coef) from hs) id
    simpa only [count, Int.one_mul, @eq_comm Node] using this
  | .mul p q, acc, acc', b, h, hs, hd => by
    unfold gather at h
    simp only at h
    split at h
    · rename_i t v hsp
      obtain ⟨x, hx, h⟩ := bind_ok h
      obtain ⟨y, hy, h⟩ := bind_ok h
      cases pure_ok h
      cases i64_ok hx
      obtain ⟨htm, hab⟩ := splitMultiply_some hsp
      have hw : v * (if b = true then -1 else 1) = sgn b * v := by
        rw [Int.mul_comm]; rfl
      have ht : Term t := by
        rcases hs with ⟨w, rfl, hT⟩ | ⟨w, rfl, hT⟩ | ⟨_, h1, h2⟩
        · rcases hab with ⟨_, rfl⟩ | ⟨_, rfl⟩
          · exact hT
          · cases htm
        · rcases hab with ⟨_, rfl⟩ | ⟨_, rfl⟩
          · cases htm
          · exact hT
        · rcases hab with ⟨rfl, rfl⟩ | ⟨rfl, rfl⟩
          · exact recFree_term htm h2
          · exact recFree_term htm h1
      have key := gathers_term (v := v) (s := sgn b) hd hw hy (R := RecFree (.mul p q)) ht (fun hr => by
        rcases hab with ⟨_, rfl⟩ | ⟨_, rfl⟩
        · exact hr.2
        · exact hr.1)
      rcases hab with ⟨rfl, rfl⟩ | ⟨rfl, rfl⟩
      · simpa only [eval, count_mul_left, slope] using key
      · simpa only [eval, count_mul_right _ v htm, slope_mul_right, Int.mul_comm _ v] using key
    · rename_i hsp
      cases ok_ok h
      have hop : b = false ∧ RecFree p ∧ RecFree q := by
        rcases hs with ⟨w, rfl, hT⟩ | ⟨w, rfl, hT⟩ | h1
        · rw [splitMultiply_const_left o w (term_isTerm hT)] at hsp; cases hsp
        · rw [splitMultiply_const_right o w (term_isTerm hT)] at hsp; cases hsp
        · exact h1
      obtain ⟨rfl, hp, hq⟩ := hop
      refine ⟨fun e => ?_, fun t ht => ?_, fun e l => ?_, hd, fun t ht => .inl ht, fun c hc => ?_⟩
      · simp only [Acc.val, evalSum_addChild, sgn]; simp; omega
      · simp [count_opaque ht hsp]
      · simp [slope_recFree e l (.mul p q) ⟨hp, hq⟩]
      · rcases (mem_addChild o _ _ _).1 hc with rfl | hc
        · exact .inr ⟨⟨hp, hq⟩, _, _, rfl⟩
        · exact .inl hc
  | .add cs, acc, acc', b, h, hs, hd => by
    unfold gather at h
    have := gatherList_spec o cs acc acc' b h hs hd
    simpa only [eval, count, slope, RecFree] using this
  | .neg a, acc, acc', b, h, hs, hd => by
    unfold gather at h
    have := gather_spec o a acc acc' (!b) h hs hd
    refine ⟨fun e => ?_, fun t ht => ?_, fun e l => ?_, this.nodup, this.keys, this.kept⟩
    · rw [this.val, sgn_not, eval, Int.neg_mul, Int.mul_neg]
    · rw [this.look t ht, sgn_not, count, Int.neg_mul, Int.mul_neg]
    · rw [this.slope, sgn_not, Spec.slope, Int.neg_mul, Int.mul_neg]
  | .cant, acc, acc', b, h, hs, hd => hs.elim
theorem gatherList_spec (o : Order) : ∀ (cs : List Node) (acc acc' : Acc) (b : Bool),
    gatherList o acc cs b = .ok acc' → SupportedList b cs → (acc.terms.map (·.1)).Nodup →
    Gathers acc acc' (sgn b) (fun e => evalSum e cs) (fun t => countSum t cs)
      (fun e l => slopeSum e l cs) (RecFreeList cs)
  | [], acc, acc', b, h, _, hd => by
    unfold gatherList at h
    cases ok_ok h
    refine ⟨fun e => by simp [evalSum], fun t _ => by simp [countSum],
      fun e l => by simp [slopeSum], hd, fun t ht => .inl ht, fun c hc => .inl hc⟩
  | c :: cs, acc, acc', b, h, hs, hd => by
    unfold gatherList at h
    obtain ⟨x, hx, h⟩ := bind_ok h
    have h1 := gather_spec o c acc x b hx hs.1 hd
    have h2 := gatherList_spec o cs x acc' b h hs.2 h1.nodup
    refine ⟨fun e => ?_, fun t ht => ?_, fun e l => ?_, h2.nodup, fun t ht => ?_, fun d hd => ?_⟩
    · rw [h2.val, h1.val, evalSum, Int.mul_add]; omega
    · rw [h2.look t ht, h1.look t ht, countSum, Int.mul_add]; omega
    · rw [h2.slope, h1.slope, slopeSum, Int.mul_add]; omega
    · rcases h2.keys t ht with h3 | h3
      · rcases h1.keys t h3 with h4 | h4
        · exact .inl h4
        · exact .inr ⟨h4.1, fun hr => h4.2 hr.1⟩
      · exact .inr ⟨h3.1, fun hr => h3.2 hr.2⟩
    · rcases h2.kept d hd with h3 | h3
      · exact h1.kept d h3
      · exact .inr h3
end

end Verif.ScalarEvo
