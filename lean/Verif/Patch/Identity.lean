import Verif.Patch.PeelLemmas
import Verif.Patch.Extra

/-!
# Model of `IdentityInsertion`

Source: `/repo/hugr-core/src/hugr/patch/insert_identity.rs`.
-/
namespace Verif.Patch

open Verif.Graph Verif.Ops Verif.Passes Verif.Validate Verif.Dataflow

variable {Meta : Type}

/-- The operation `Noop`, hugr-core/src/extension/prelude.rs:795-822 and 855-895. -/
def noop (t : Types.Ty) : Ops.Op := .extensionOp "prelude" "Noop" [.runtime t] ⟨[t], [t]⟩

/-- The outcome of `IdentityInsertion`, insert_identity.rs:38-50, with the Hugr that is left. -/
inductive Insertion (Meta : Type) where
  | ok (h : Hugr Ops.Op Meta)
  | invalidPortKind
  | invalidParent (h : Hugr Ops.Op Meta)
  | panic

/-- The new node is put in, insert_identity.rs:104-107. -/
def putNoop (h : Hugr Ops.Op Meta) (w p s sp d dp : Nat) (t : Types.Ty) : Option (Hugr Ops.Op Meta) :=
  match h.addNodeWithParent opsInfo.toOpInfo w p (noop t) with
  | none => none
  | some h1 =>
    match h1.connect ⟨s, sp, w, 0⟩ with
    | none => none
    | some h2 => h2.connect ⟨w, 0, d, dp⟩

/-- `IdentityInsertion::apply_hugr_mut`, insert_identity.rs:82-109, at the incoming port `dp` of `d`. `w` is
the index of the new node. -/
def insertIdentity (h : Hugr Ops.Op Meta) (d dp w : Nat) : Insertion Meta :=
  match (h.ops d).portKind .incoming dp with
  | .panic => .panic
  | .ok (some (.value t)) =>
    match singleLinkedOutput h d dp with
    | none => .panic
    | some (s, sp) =>
      match h.disconnect d .incoming dp with
      | none => .panic
      | some h1 =>
        match h1.hier.parent d with
        | none => .invalidParent h1
        | some p =>
          if OpTag.isSuperset .dataflowParent (h1.ops p).opTag then
            match putNoop h1 w p s sp d dp t with
            | none => .panic
            | some g => .ok g
          else .invalidParent h1
  | .ok _ => .invalidPortKind

/-! ## Specification -/

/-- `g` is `h` with the new node `w` next to `d`, on the way from the port `sp` of `s` to the port `dp` of
`d`. -/
structure NoopPut (h : Hugr Ops.Op Meta) (w p s sp d dp : Nat) (t : Types.Ty) (g : Hugr Ops.Op Meta) : Prop where
  /-- There is one more node, at the end of the region. -/
  live : ∀ x, g.live x = true ↔ h.live x = true ∨ x = w
  children : ∀ x, g.children x = if x = p then h.children p ++ [w] else h.children x
  parent : ∀ x, g.hier.parent x = if x = w then some p else h.hier.parent x
  ops : ∀ x, g.ops x = if x = w then noop t else h.ops x
  /-- It has ports for the value and for order. -/
  ports : g.ins w = 2 ∧ g.outs w = 2
  others : ∀ x, x ≠ w → g.ins x = h.ins x ∧ g.outs x = h.outs x
  metadata : g.metadata = h.metadata
  roots : g.moduleRoot = h.moduleRoot ∧ g.entrypoint = h.entrypoint
  /-- One link is replaced by two. -/
  links : ∃ rest, h.links.Perm (⟨s, sp, d, dp⟩ :: rest) ∧ g.links.Perm (⟨s, sp, w, 0⟩ :: ⟨w, 0, d, dp⟩ :: rest)

end Verif.Patch
