import Verif.Flatten.Model
/-!
# What annotations mean
-/
namespace Verif.Flatten.Spec
open Verif.Flatten

/-- The id carries the decoration, directly or through a group. -/
inductive Carries (as : List Ann) (t : Id) (d : List Word) : Prop where
  | direct : Ann.decorate t d ∈ as → Carries as t d
  | group {g ts} : Ann.decorate g d ∈ as → Ann.groupDecorate g ts ∈ as → t ∈ ts → Carries as t d

/-- The pair is at an even position of the words. -/
inductive At (t : Id) (m : Word) : List Word → Prop where
  | here {r} : At t m (t :: m :: r)
  | later {a b r} : At t m r → At t m (a :: b :: r)

/-- The member of a structure type carries the decoration. -/
inductive MemberCarries (as : List Ann) (t : Id) (m : Word) (d : List Word) : Prop where
  | direct : Ann.member t m d ∈ as → MemberCarries as t m d
  | group {g ws} : Ann.decorate g d ∈ as → Ann.groupMember g ws ∈ as → At t m ws → MemberCarries as t m d

/-- The instruction says something about the id, or defines it. -/
def Mentions (i : Id) : Ann → Prop
  | .group g => g = i
  | .decorate t _ => t = i
  | .member t _ _ => t = i
  | .groupDecorate g ts => g = i ∨ i ∈ ts
  | .groupMember g ws => g = i ∨ ∃ m, At i m ws
  | .other _ t _ => t = i

/-- What the validator asks of decoration groups. -/
structure Valid (as : List Ann) : Prop where
  uses : ∀ g ts, Ann.groupDecorate g ts ∈ as → Ann.group g ∈ as
  member_uses : ∀ g ws, Ann.groupMember g ws ∈ as → Ann.group g ∈ as
  /-- pairs of an id and a member -/
  even : ∀ g ws, Ann.groupMember g ws ∈ as → ws.length % 2 = 0
  /-- groups are not decorated by groups -/
  flat : ∀ g ts t, Ann.groupDecorate g ts ∈ as → t ∈ ts → Ann.group t ∉ as
  /-- groups are not structure types -/
  member_flat : ∀ g ws t m, Ann.groupMember g ws ∈ as → At t m ws → Ann.group t ∉ as
  member_target : ∀ t m d, Ann.member t m d ∈ as → Ann.group t ∉ as
  other_target : ∀ op t d, Ann.other op t d ∈ as → Ann.group t ∉ as

end Verif.Flatten.Spec
