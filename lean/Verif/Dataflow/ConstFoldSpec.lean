import Verif.Dataflow.ConstFold
import Verif.Dataflow.SimSpec

/-!
# Specification of constant folding: what is assumed of extensions and of the inputs
-/
namespace Verif.Dataflow

open Verif.Graph Verif.Ops

variable {Meta W E : Type}

/-- The folders of extensions are right: if the known inputs are the actual ones, each output they
return is the actual one. With more inputs known, they return nothing different. -/
structure FolderSound (F : Folder E) (S : Sem W E) : Prop where
  constant : S.const = F.constant
  fold : ∀ n known ins outs, S.ext n ins outs →
    (∀ e ∈ known, ins[e.1]? = some (S.value e.2.1)) →
    ∀ e ∈ F.fold n known, ∀ v, outs[e.1]? = some v → v = S.value e.2.1
  consistent : ∀ n known known', known.Sublist known' → ∀ p c c', (p, c) ∈ F.fold n known →
    (p, c') ∈ F.fold n known' → c.1 = c'.1

/-- The values that can not be hashed and that were given for the same input of two nodes are the
same. -/
def InputsAgree (F : Folder E) (inputs : FoldInputs E) : Prop :=
  ∀ x ∈ inputs, ∀ y ∈ inputs, ∀ p c d, (p, c) ∈ x.2 → (p, d) ∈ y.2 → ∀ path e e', LeafAt c path e →
    LeafAt d path e' → F.hashable e = false → F.hashable e' = false → e = e'

/-- The starts of an execution that the pass was told about: a node for which inputs were given, with
those inputs, the others being arbitrary; or the entrypoint if there is no such node. -/
def FoldStarts (h : Hugr Ops.Op Meta) (S : Sem W E) (inputs : FoldInputs E) (r : Nat)
    (args : List (Val W)) : Prop :=
  h.live r = true ∧ args.length = numArgs h r ∧
  ((inputs = [] ∧ r = h.entrypoint) ∨
   ∃ vals, (r, vals) ∈ inputs ∧ ∀ i c, (i, c) ∈ vals → ∀ v, args[i]? = some v → v = S.value c)

/-- No value that comes from outside was replaced: no broken wire comes from the input node of a
function, case or block that the execution may be started with. -/
def InputsKept (h : Hugr Ops.Op Meta) (inputs : FoldInputs E) (bs : List (Break E)) : Prop :=
  ∀ b ∈ bs, ∀ l ∈ h.links, l.dst = b.node → l.dstPort = b.port →
    ∀ r, r = h.entrypoint ∨ r ∈ inputs.map Prod.fst → IsRegion h r → ¬ ∃ o, HasIO h r l.src o

/-- `h'` is `h`, but the wires of `bs` come from new nodes: for each, a constant node and a node that
loads it, which are the last children of the node around. `k` are the values of the constants. -/
structure Rewired (h : Hugr Ops.Op Meta) (old : Nat → CVal E) (bs : List (Break E × Nat × Nat))
    (h' : Hugr Ops.Op Meta) (k : Nat → CVal E) : Prop where
  tree : IsTree h'
  roots : h'.moduleRoot = h.moduleRoot ∧ h'.entrypoint = h.entrypoint
  kept : ∀ n, h.live n = true → h'.live n = true ∧ h'.ops n = h.ops n ∧ h'.ins n = h.ins n ∧
    h'.outs n = h.outs n ∧ h'.hier.parent n = h.hier.parent n ∧ h.children n <+: h'.children n ∧
    k n = old n
  added : ∀ n, h'.live n = true → h.live n = false → ∃ x ∈ bs, n = x.2.1 ∨ n = x.2.2
  constant : ∀ x ∈ bs, h.live x.2.1 = false ∧ h'.live x.2.1 = true ∧ h'.ops x.2.1 = .const x.1.val.2 ∧
    k x.2.1 = x.1.val.1 ∧ h'.hier.parent x.2.1 = h.hier.parent x.1.node ∧ h'.children x.2.1 = []
  load : ∀ x ∈ bs, h.live x.2.2 = false ∧ h'.live x.2.2 = true ∧
    h'.ops x.2.2 = .loadConstant x.1.val.2 ∧ h'.hier.parent x.2.2 = h.hier.parent x.1.node ∧
    h'.children x.2.2 = []
  distinct : (bs.flatMap fun x => [x.2.1, x.2.2]).Nodup
  links : ∀ l, l ∈ h'.links ↔
    (l ∈ h.links ∧ ∀ x ∈ bs, ¬ (l.dst = x.1.node ∧ l.dstPort = x.1.port)) ∨
    ∃ x ∈ bs, l = ⟨x.2.1, 0, x.2.2, 0⟩ ∨ l = ⟨x.2.2, 0, x.1.node, x.1.port⟩

end Verif.Dataflow
