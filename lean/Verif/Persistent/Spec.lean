import Mathlib.Logic.Relation
import Verif.Persistent.Model

/-!
# What a history is

The properties of stores of commits and of persistent HUGRs, without the functions that make them.
-/
namespace Verif.Persistent

/-- `a` is `c` or an ancestor of `c`. -/
def Ancestor (w : World) (c a : Nat) : Prop :=
  Relation.ReflTransGen (fun d p => p ∈ w.parents d) c a

/-- A set of commits in a state space is a history: it has exactly one base, every parent of a
commit is there, and no two commits delete the same node of the same commit. -/
structure IsHistory (w : World) (members : List Nat) (base : Nat) : Prop where
  exist : ∀ c ∈ members, c < w.length
  base_mem : base ∈ members
  base_only : ∀ c ∈ members, w.isBase c = true ↔ c = base
  parents : ∀ c ∈ members, ∀ p ∈ w.parents c, p ∈ members
  same_space : ∀ c ∈ members, w.space c = w.space base
  compatible : ∀ c ∈ members, ∀ d ∈ members, c ≠ d → ∀ n ∈ w.deletes c, n ∉ w.deletes d

/-- No commit lists a deleted node twice. -/
def DistinctDeletes (w : World) : Prop := ∀ c, (w.deletes c).Nodup

/-- The store of commits is well formed: parents are older, identifiers are unique in a state space,
the owners of the deleted nodes and all other parents are in the state space of the commit, and a
state space has one base, the commit without parents. -/
structure StoreOk (w : World) : Prop where
  older : ∀ c p, p ∈ w.parents c → p < c
  ids : ∀ c d, c < w.length → d < w.length → w.space c = w.space d → w.id c = w.id d → c = d
  owners : ∀ c, ∀ n ∈ w.deletes c, ∃ p ∈ w.parents c, w.id p = n.1
  spaces : ∀ c, ∀ p ∈ w.parents c, w.space p = w.space c
  bases : ∀ c < w.length, w.isBase c = true ↔ w.parents c = []
  one_base : ∀ c d, w.isBase c = true → w.isBase d = true → w.space c = w.space d → c = d

end Verif.Persistent
