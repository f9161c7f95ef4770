import Verif.DomTree.Model
import Verif.Cfa.Blocks
/-!
# Depth-first numbering of a tree: intervals nest exactly for ancestors
-/
set_option linter.unusedSimpArgs false
set_option linter.unusedVariables false
set_option linter.unusedSectionVars false
namespace Verif.DomTree
open Verif.Cfa Verif.Cfa.Spec
variable {B : Type} [DecidableEq B]

/-- The numbered calls: everything but back-edge reports. -/
def calls (es : List (Event B)) : List (Event B) :=
  es.filter fun | .back _ _ => false | _ => true

@[simp] theorem calls_nil : calls ([] : List (Event B)) = [] := rfl
@[simp] theorem calls_pre (b : B) (es) : calls (.pre b :: es) = .pre b :: calls es := rfl
@[simp] theorem calls_post (b : B) (es) : calls (.post b :: es) = .post b :: calls es := rfl
@[simp] theorem calls_back (a b : B) (es) : calls (.back a b :: es) = calls es := rfl
@[simp] theorem calls_append (a b : List (Event B)) : calls (a ++ b) = calls a ++ calls b :=
  List.filter_append ..
@[simp] theorem calls_ite (p : Prop) [Decidable p] (a b : B) :
    calls (if p then [Event.back a b] else []) = [] := by split <;> rfl

theorem mem_calls_pre (es : List (Event B)) (x : B) : .pre x ∈ calls es ↔ x ∈ preOf es := by
  induction es with
  | nil => simp
  | cons e es ih => cases e <;> simp [ih]

theorem mem_calls_post (es : List (Event B)) (x : B) : .post x ∈ calls es ↔ x ∈ postOf es := by
  induction es with
  | nil => simp
  | cons e es ih => cases e <;> simp [ih]

theorem calls_nodup {es : List (Event B)} (h1 : (preOf es).Nodup) (h2 : (postOf es).Nodup) :
    (calls es).Nodup := by
  induction es with
  | nil => simp
  | cons e es ih =>
    cases e with
    | pre b =>
      simp only [preOf_pre, postOf_pre, calls_pre, List.nodup_cons, mem_calls_pre] at *
      exact ⟨h1.1, ih h1.2 h2⟩
    | post b =>
      simp only [preOf_post, postOf_post, calls_post, List.nodup_cons, mem_calls_post] at *
      exact ⟨h2.1, ih h1 h2.2⟩
    | back a b => simpa using ih (by simpa using h1) (by simpa using h2)

theorem idxOf_ne {α : Type} [DecidableEq α] {a b : α} {l : List α} (h : b ≠ a) :
    (b :: l).idxOf a = l.idxOf a + 1 := by
  rw [List.idxOf_cons, beq_false_of_ne h]; rfl

abbrev ip (es : List (Event B)) (x : B) : Nat := (calls es).idxOf (.pre x)
abbrev iq (es : List (Event B)) (x : B) : Nat := (calls es).idxOf (.post x)

theorem ip_lt {es : List (Event B)} {x : B} (h : x ∈ preOf es) : ip es x < (calls es).length :=
  List.idxOf_lt_length_of_mem ((mem_calls_pre es x).mpr h)
theorem iq_lt {es : List (Event B)} {x : B} (h : x ∈ postOf es) : iq es x < (calls es).length :=
  List.idxOf_lt_length_of_mem ((mem_calls_post es x).mpr h)

theorem ip_append (a b : List (Event B)) (x : B) :
    ip (a ++ b) x = if x ∈ preOf a then ip a x else ip b x + (calls a).length := by
  simp only [ip, calls_append, List.idxOf_append, mem_calls_pre]
theorem iq_append (a b : List (Event B)) (x : B) :
    iq (a ++ b) x = if x ∈ postOf a then iq a x else iq b x + (calls a).length := by
  simp only [iq, calls_append, List.idxOf_append, mem_calls_post]
theorem ip_pre (b : B) (es) (x : B) : ip (.pre b :: es) x = if x = b then 0 else ip es x + 1 := by
  simp only [ip, calls_pre]
  by_cases h : x = b
  · simp [h]
  · rw [if_neg h]
    exact idxOf_ne (by simpa using fun e => h e.symm)
theorem iq_post (b : B) (es) (x : B) : iq (.post b :: es) x = if x = b then 0 else iq es x + 1 := by
  simp only [iq, calls_post]
  by_cases h : x = b
  · simp [h]
  · rw [if_neg h]
    exact idxOf_ne (by simpa using fun e => h e.symm)
theorem ip_post (b : B) (es) (x : B) : ip (.post b :: es) x = ip es x + 1 :=
  idxOf_ne (by simp)
theorem iq_pre (b : B) (es) (x : B) : iq (.pre b :: es) x = iq es x + 1 :=
  idxOf_ne (by simp)
theorem ip_skip (p : Prop) [Decidable p] (a b : B) (es) (x : B) :
    ip ((if p then [Event.back a b] else []) ++ es) x = ip es x := by
  simp [ip]
theorem iq_skip (p : Prop) [Decidable p] (a b : B) (es) (x : B) :
    iq ((if p then [Event.back a b] else []) ++ es) x = iq es x := by
  simp [iq]

/-- A node entered during the search, other than a direct child, has a parent whose
interval strictly contains its own. -/
theorem kids_parent {kids : B → List B} {u S P cs es P'} (h : Kids kids u S P cs es P') :
    ∀ x ∈ preOf es, x ∈ cs ∨ ∃ y, x ∈ kids y ∧ y ∈ preOf es ∧ ip es y < ip es x ∧ iq es x < iq es y := by
  induction h with
  | nil => simp
  | skip hc _ ih =>
    intro x hx
    simp only [preOf_append, preOf_ite, List.nil_append] at hx
    rcases ih x hx with h | ⟨y, h1, h2, h3, h4⟩
    · exact Or.inl (by simp [h])
    · refine Or.inr ⟨y, h1, by simp [h2], ?_, ?_⟩
      · rw [ip_skip, ip_skip]; exact h3
      · rw [iq_skip, iq_skip]; exact h4
  | enter hc hk1 hk2 ih1 ih2 =>
    rename_i u S P c cs e1 P1 e2 P2
    have n1 := hk1.nodup
    have n2 := hk2.nodup
    have s1 := hk1.seen
    have p1 := hk1.perm
    have p2 := hk2.perm
    intro x hx
    simp only [preOf_pre, preOf_append, preOf_post, List.mem_cons, List.mem_append] at hx
    rcases hx with rfl | hx | hx
    · exact Or.inl (by simp)
    · right
      have hxc : x ≠ c := by rintro rfl; exact n1.2 x hx (by simp)
      have hxq : x ∈ postOf e1 := p1.mem_iff.mpr hx
      rcases ih1 x hx with h | ⟨y, h1, h2, h3, h4⟩
      · have hcq : c ∉ postOf e1 := fun h => n1.2 c (p1.mem_iff.mp h) (by simp)
        refine ⟨c, h, by simp, ?_, ?_⟩
        · rw [ip_pre, ip_pre, if_pos rfl, if_neg hxc]; omega
        · rw [iq_pre, iq_pre, iq_append, iq_append, if_pos hxq, if_neg hcq]
          have := iq_lt hxq; omega
      · have hyc : y ≠ c := by rintro rfl; exact n1.2 y h2 (by simp)
        have hyq : y ∈ postOf e1 := p1.mem_iff.mpr h2
        refine ⟨y, h1, by simp [h2], ?_, ?_⟩
        · rw [ip_pre, ip_pre, if_neg hyc, if_neg hxc, ip_append, ip_append, if_pos hx, if_pos h2]; omega
        · rw [iq_pre, iq_pre, iq_append, iq_append, if_pos hxq, if_pos hyq]; omega
    · have dis : ∀ z, z ∈ preOf e2 → z ∉ P1 := fun z hz => n2.2 z hz
      have ne : ∀ z, z ∈ preOf e2 → z ≠ c ∧ z ∉ preOf e1 ∧ z ∉ postOf e1 := by
        intro z hz
        have := dis z hz
        rw [s1] at this
        simp only [List.mem_cons, not_or] at this
        exact ⟨this.1.1, this.2, fun h => this.2 (p1.mem_iff.mp h)⟩
      rcases ih2 x hx with h | ⟨y, h1, h2, h3, h4⟩
      · exact Or.inl (by simp [h])
      · right
        obtain ⟨a1, a2, a3⟩ := ne x hx
        obtain ⟨b1, b2, b3⟩ := ne y h2
        refine ⟨y, h1, by simp [h2], ?_, ?_⟩
        · rw [ip_pre, ip_pre, if_neg a1, if_neg b1, ip_append, ip_append, if_neg a2, if_neg b2, ip_post, ip_post]
          omega
        · rw [iq_pre, iq_pre, iq_append, iq_append, if_neg a3, if_neg b3, iq_post, iq_post, if_neg a1, if_neg b1]
          omega

/-- Nested intervals come from nested calls: the inner node is a descendant. -/
theorem kids_nested {kids : B → List B} {u S P cs es P'} (h : Kids kids u S P cs es P') :
    ∀ a ∈ preOf es, ∀ b ∈ preOf es, ip es a < ip es b → iq es b < iq es a →
      Reach (fun x y => y ∈ kids x) a b := by
  induction h with
  | nil => simp
  | skip hc _ ih =>
    intro a ha b hb
    rw [ip_skip, ip_skip, iq_skip, iq_skip]
    exact ih a (by simpa using ha) b (by simpa using hb)
  | enter hc hk1 hk2 ih1 ih2 =>
    rename_i u S P c cs e1 P1 e2 P2
    have n1 := hk1.nodup
    have n2 := hk2.nodup
    have s1 := hk1.seen
    have p1 := hk1.perm
    have p2 := hk2.perm
    have ne : ∀ z, z ∈ preOf e2 → z ≠ c ∧ z ∉ preOf e1 ∧ z ∉ postOf e1 := by
      intro z hz
      have := n2.2 z hz
      rw [s1] at this
      simp only [List.mem_cons, not_or] at this
      exact ⟨this.1.1, this.2, fun h => this.2 (p1.mem_iff.mp h)⟩
    have ne1 : ∀ z, z ∈ preOf e1 → z ≠ c ∧ z ∈ postOf e1 := by
      intro z hz
      exact ⟨by rintro rfl; exact n1.2 z hz (by simp), p1.mem_iff.mpr hz⟩
    have hcq : c ∉ postOf e1 := fun h => n1.2 c (p1.mem_iff.mp h) (by simp)
    intro a ha b hb
    simp only [preOf_pre, preOf_append, preOf_post, List.mem_cons, List.mem_append] at ha hb
    simp only [ip_pre, iq_pre, ip_append, iq_append, ip_post, iq_post]
    rcases ha with rfl | ha | ha
    · rcases hb with rfl | hb | hb
      · intro h; omega
      · intro _ _
        obtain ⟨k, h1, h2⟩ := hk1.sound b hb
        exact Reach.head (E := fun x y => y ∈ kids x) h1 h2
      · obtain ⟨b1, b2, b3⟩ := ne b hb
        rw [if_neg b3, if_neg hcq]
        simp only [b1, if_false, if_true]
        intro _ h; omega
    · obtain ⟨a1, a2⟩ := ne1 a ha
      rcases hb with rfl | hb | hb
      · simp only [a1, if_false, if_true]; intro h; omega
      · obtain ⟨b1, b2⟩ := ne1 b hb
        simp only [a1, a2, b1, b2, ha, hb, if_true, if_false]
        intro h1 h2
        exact ih1 a ha b hb (by omega) (by omega)
      · obtain ⟨b1, b2, b3⟩ := ne b hb
        have := iq_lt a2
        simp only [a1, a2, b1, b2, b3, ha, if_true, if_false]
        intro h1 h2
        omega
    · obtain ⟨a1, a2, a3⟩ := ne a ha
      rcases hb with rfl | hb | hb
      · simp only [a1, if_false, if_true]; intro h; omega
      · obtain ⟨b1, b2⟩ := ne1 b hb
        have := ip_lt hb
        simp only [a1, a2, a3, b1, b2, hb, if_true, if_false]
        intro h1 h2
        omega
      · obtain ⟨b1, b2, b3⟩ := ne b hb
        simp only [a1, a2, a3, b1, b2, b3, if_true, if_false]
        intro h1 h2
        exact ih2 a ha b hb (by omega) (by omega)

/-- Depth-first numbering of a tree (every node has at most one parent, the root none):
for distinct nodes, the intervals nest exactly for ancestors. -/
theorem dfs_nested [Blocks B] (kids : B → List B) (root : B)
    (huniq : ∀ x y z, z ∈ kids x → z ∈ kids y → x = y) (hroot : ∀ x, root ∉ kids x)
    {a b : B} (hne : a ≠ b) (ha : Reach (fun x y => y ∈ kids x) root a)
    (hb : Reach (fun x y => y ∈ kids x) root b) :
    (ip (depthFirst kids (fun _ => false) root) a < ip (depthFirst kids (fun _ => false) root) b ∧
      iq (depthFirst kids (fun _ => false) root) b < iq (depthFirst kids (fun _ => false) root) a) ↔
    Reach (fun x y => y ∈ kids x) a b := by
  have hd := depthFirst_isDfs kids (fun _ => false) root
  have f := dfsFacts hd
  have hE : Edge kids (fun _ => false) = (fun x y => y ∈ kids x) := by
    funext x y; simp [Edge]
  have hmem := f.mem
  rw [hE] at hmem
  generalize hes : depthFirst kids (fun _ => false) root = es at *
  obtain ⟨e, P, hk, rfl⟩ := hd
  simp only [Bool.false_eq_true, if_false] at hk
  have hk : Kids kids root [] [root] (kids root) e P := hk
  have n := hk.nodup
  have p := hk.perm
  have par := kids_parent hk
  have ne1 : ∀ z, z ∈ preOf e → z ≠ root ∧ z ∈ postOf e := fun z hz =>
    ⟨by rintro rfl; exact n.2 z hz (by simp), p.mem_iff.mpr hz⟩
  have hrq : root ∉ postOf e := fun h => n.2 root (p.mem_iff.mp h) (by simp)
  have hsplit : ∀ z, Reach (fun x y => y ∈ kids x) root z → z = root ∨ z ∈ preOf e := by
    intro z hz
    have := (hmem z).mpr hz
    simpa using this
  have edge : ∀ x y, Reach (fun x y => y ∈ kids x) root x → y ∈ kids x →
      ip (.pre root :: (e ++ [.post root])) x < ip (.pre root :: (e ++ [.post root])) y ∧
      iq (.pre root :: (e ++ [.post root])) y < iq (.pre root :: (e ++ [.post root])) x := by
    intro x y hx hy
    have hy' : y ∈ preOf e := by
      rcases hsplit y (.tail hx hy) with rfl | h
      · exact absurd hy (hroot x)
      · exact h
    obtain ⟨y1, y2⟩ := ne1 y hy'
    simp only [ip_pre, iq_pre, ip_append, iq_append, ip_post, iq_post, y1, y2, hy', if_true, if_false]
    have := iq_lt y2
    rcases par y hy' with h | ⟨w, h1, h2, h3, h4⟩
    · have : x = root := huniq _ _ _ hy h
      subst this
      rw [if_neg hrq]
      simp only [if_true]
      omega
    · have : x = w := huniq _ _ _ hy h1
      subst this
      obtain ⟨x1, x2⟩ := ne1 x h2
      simp only [x1, x2, h2, if_true, if_false]
      omega
  constructor
  · rintro ⟨h1, h2⟩
    simp only [ip_pre, iq_pre, ip_append, iq_append, ip_post, iq_post] at h1 h2
    rcases hsplit a ha with rfl | ha'
    · exact hb
    · obtain ⟨a1, a2⟩ := ne1 a ha'
      rcases hsplit b hb with rfl | hb'
      · simp only [if_true] at h1; omega
      · obtain ⟨b1, b2⟩ := ne1 b hb'
        simp only [a1, a2, ha', b1, b2, hb', if_true, if_false] at h1 h2
        exact kids_nested hk a ha' b hb' (by omega) (by omega)
  · intro hab
    have key : ∀ c, Reach (fun x y => y ∈ kids x) a c → c = a ∨
        (ip (.pre root :: (e ++ [.post root])) a < ip (.pre root :: (e ++ [.post root])) c ∧
          iq (.pre root :: (e ++ [.post root])) c < iq (.pre root :: (e ++ [.post root])) a) := by
      intro c hc
      induction hc with
      | refl => exact Or.inl rfl
      | tail hp he ih =>
        have := edge _ _ (Reach.trans ha hp) he
        rcases ih with rfl | ih
        · exact Or.inr this
        · exact Or.inr (by omega)
    exact (key b hab).resolve_left (fun h => hne h.symm)

end Verif.DomTree
