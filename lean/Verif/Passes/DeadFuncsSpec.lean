import Verif.Passes.DeadCodeSpec
import Verif.Passes.DeadFuncs

/-!
# Specification of dead function removal
-/
namespace Verif.Passes

open Verif.Graph

variable {Meta : Type}

/-- `l` is the link that tells the node it leads to which function to call or load, or which constant
to load. -/
def StaticLink (h : Hugr Ops.Op Meta) (l : Link) : Prop :=
  l ∈ h.links ∧ (h.ops l.dst).ownStaticPort = some l.dstPort

/-- Something strictly inside `f` calls or loads `t`, which is at module level. -/
def Uses (h : Hugr Ops.Op Meta) (f t : Nat) : Prop :=
  ∃ l, StaticLink h l ∧ l.src = t ∧ h.hier.parent t = some h.moduleRoot ∧ l.dst ≠ f ∧
    Above h.hier.parent l.dst f

/-- Reachable from the given functions and the entrypoint (unless that is the whole module). -/
inductive Reachable (h : Hugr Ops.Op Meta) (entries : List Nat) : Nat → Prop
  | given {n : Nat} : n ∈ entries → Reachable h entries n
  | entrypoint : h.entrypoint ≠ h.moduleRoot → Reachable h entries h.entrypoint
  | use {f t : Nat} : Reachable h entries f → Uses h f t → Reachable h entries t

/-- A function that is to be removed: a definition or declaration at module level that is not
reachable and that the entrypoint is not inside of. -/
def DeadFunc (h : Hugr Ops.Op Meta) (entries : List Nat) (f : Nat) : Prop :=
  h.hier.parent f = some h.moduleRoot ∧
  ((∃ n s, h.ops f = .funcDefn n s) ∨ ∃ n s, h.ops f = .funcDecl n s) ∧
  ¬ Reachable h entries f ∧ ¬ Above h.hier.parent h.entrypoint f

/-- As in a valid Hugr: calls and loads have at most one link that tells what to use, and this is a
function or constant at module level, or a constant elsewhere that is loaded. -/
structure StaticOk (h : Hugr Ops.Op Meta) : Prop where
  single : ∀ l l', StaticLink h l → StaticLink h l' → l.dst = l'.dst → l.src = l'.src
  atModule : ∀ l, StaticLink h l → h.hier.parent l.src = some h.moduleRoot →
    (∃ n s, h.ops l.src = .funcDefn n s) ∨ (∃ n s, h.ops l.src = .funcDecl n s) ∨
    ∃ t, h.ops l.src = .const t
  elsewhere : ∀ l, StaticLink h l → h.hier.parent l.src ≠ some h.moduleRoot →
    (∃ t, h.ops l.dst = .loadConstant t) ∧ (∃ t, h.ops l.src = .const t) ∧ l.src ≠ h.entrypoint

/-- As in a valid Hugr: a link joins nodes inside one node at module level, or it tells a node inside
a function definition which function or constant at module level to use. -/
def ModuleLinks (h : Hugr Ops.Op Meta) : Prop :=
  ∀ l ∈ h.links,
    (∃ c, h.hier.parent c = some h.moduleRoot ∧ Above h.hier.parent l.src c ∧
      Above h.hier.parent l.dst c) ∨
    (StaticLink h l ∧ h.hier.parent l.src = some h.moduleRoot ∧
      ∃ d n s, h.hier.parent d = some h.moduleRoot ∧ h.ops d = .funcDefn n s ∧ l.dst ≠ d ∧
        Above h.hier.parent l.dst d)

/-- As in every Hugr made by the builders: only the root of the module is a module. -/
def OneModule (h : Hugr Ops.Op Meta) : Prop :=
  ∀ n, h.live n = true → h.ops n = .module → n = h.moduleRoot

end Verif.Passes
