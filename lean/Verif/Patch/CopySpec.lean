import Verif.Patch.ValidLemmas
import Verif.Patch.Copy

/-!
# Specification: copying the inside of a node
-/
namespace Verif.Patch

open Verif.Graph Verif.Ops Verif.Validate

variable {Meta : Type}

/-- `g` is `h` with a copy of what is inside `root` put inside `np`. `μ n` is the copy of `n`, or `n` if
there is none; `nodes` are the nodes inside `root`; operations are copied by `sub`. -/
structure Copied (sub : Ops.Op → Option Ops.Op) (h : Hugr Ops.Op Meta) (root np : Nat) (nodes : List Nat)
    (μ : Nat → Nat) (g : Hugr Ops.Op Meta) : Prop where
  mem : ∀ n, n ∈ nodes ↔ Inside h root n
  keep : ∀ n, n ∉ nodes → μ n = n
  fresh : ∀ n ∈ nodes, h.live (μ n) = false
  inj : ∀ a ∈ nodes, ∀ b ∈ nodes, μ a = μ b → a = b
  live : ∀ n, g.live n = true ↔ h.live n = true ∨ ∃ a ∈ nodes, n = μ a
  /-- Nothing else is changed. -/
  old : ∀ n, (∀ a ∈ nodes, n ≠ μ a) → g.ops n = h.ops n ∧ g.ins n = h.ins n ∧ g.outs n = h.outs n ∧
    g.metadata n = h.metadata n ∧ g.hier.parent n = h.hier.parent n ∧
    (n ≠ np → g.children n = h.children n)
  new : ∀ a ∈ nodes, sub (h.ops a) = some (g.ops (μ a)) ∧ g.ins (μ a) = h.ins a ∧
    g.outs (μ a) = h.outs a ∧ g.metadata (μ a) = h.metadata a ∧
    g.children (μ a) = (h.children a).map μ
  parent : ∀ a ∈ nodes, ∀ q, h.hier.parent a = some q →
    g.hier.parent (μ a) = some (if q = root then np else μ q)
  inside : g.children np = h.children np ++ (h.children root).map μ
  links : g.links = h.links ++
    (h.links.filter fun l => decide (l.src ∈ nodes) || decide (l.dst ∈ nodes)).map (renameLink μ)
  moduleRoot : g.moduleRoot = h.moduleRoot
  entrypoint : g.entrypoint = h.entrypoint

end Verif.Patch
