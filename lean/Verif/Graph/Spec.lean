import Verif.Graph.Model

/-!
# Specification of the Hugr editing interface
-/
namespace Verif.Graph

variable {Op Meta : Type}

/-- `m` is `n` itself or one of its ancestors. -/
inductive Above (parent : Nat → Option Nat) : Nat → Nat → Prop
  | refl (n : Nat) : Above parent n n
  | step {n p m : Nat} : parent n = some p → Above parent p m → Above parent n m

/-- The hierarchy is a tree: the module root and the entrypoint are live; the module root has no
parent and every other live node has one, which is live; a node is listed among the children of
exactly its parent, once; and every live node reaches the module root. -/
structure IsTree (h : Hugr Op Meta) : Prop where
  root_live : h.live h.moduleRoot = true
  entry_live : h.live h.entrypoint = true
  root_top : h.hier.parent h.moduleRoot = none
  has_parent : ∀ n, h.live n = true → n ≠ h.moduleRoot → ∃ p, h.hier.parent n = some p
  parent_live : ∀ n p, h.hier.parent n = some p → h.live n = true ∧ h.live p = true
  child_iff : ∀ p n, n ∈ h.hier.children p ↔ h.hier.parent n = some p
  child_once : ∀ p, (h.hier.children p).Nodup
  reaches_root : ∀ n, h.live n = true → Above h.hier.parent n h.moduleRoot
  in_range : ∀ n, h.live n = true → n < h.cap

/-- Every link connects existing ports of live nodes. -/
def LinksOk (h : Hugr Op Meta) : Prop :=
  ∀ l ∈ h.links, h.live l.src = true ∧ l.srcPort < h.outs l.src ∧
    h.live l.dst = true ∧ l.dstPort < h.ins l.dst

/-- What the documentation asks of the caller and the code does not check: the parent of a new node
is in the graph, the module root is not removed, and a node removed alone has no children. -/
def Documented (h : Hugr Op Meta) : Cmd Op Meta → Prop
  | .addNodeWithParent _ parent _ => h.live parent = true
  | .removeNode n => n ≠ h.moduleRoot ∧ h.children n = []
  | .removeSubtree n => n ≠ h.moduleRoot
  | _ => True

/-- Every call of a history is made as documented. -/
def AllDocumented (I : OpInfo Op) : Hugr Op Meta → List (Cmd Op Meta) → Prop
  | _, [] => True
  | h, c :: cs => Documented h c ∧ ∀ h', step I h c = some h' → AllDocumented I h' cs

instance (h : Hugr Op Meta) (c : Cmd Op Meta) : Decidable (Documented h c) := by
  cases c <;> simp only [Documented] <;> infer_instance

instance AllDocumented.decidable (I : OpInfo Op) :
    (h : Hugr Op Meta) → (cs : List (Cmd Op Meta)) → Decidable (AllDocumented I h cs)
  | _, [] => isTrue trivial
  | h, c :: cs =>
    match hs : step I h c with
    | none => decidable_of_iff (Documented h c) (by simp [AllDocumented, hs])
    | some h' =>
      have := AllDocumented.decidable I h' cs
      decidable_of_iff (Documented h c ∧ AllDocumented I h' cs) (by simp [AllDocumented, hs])

end Verif.Graph
