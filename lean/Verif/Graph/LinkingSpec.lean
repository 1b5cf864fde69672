import Verif.Graph.Linking
import Verif.Graph.Spec

/-!
# Specification of linking

`children` are the directives: what is to happen to children of the module root of `other`.
-/
namespace Verif.Graph

variable {Op Meta : Type}

/-- The pairs of a node of the host and the node of `other` that is to replace it. -/
def replacements (children : List (Nat × Directive)) : List (Nat × Nat) :=
  children.flatMap fun c => match c.2 with
    | .add rs => rs.map fun r => (r, c.1)
    | .useExisting _ => []

/-- The pairs of a node of `other` that is not to be inserted and the node of the host to use. -/
def uses (children : List (Nat × Directive)) : List (Nat × Nat) :=
  children.flatMap fun c => match c.2 with
    | .add _ => []
    | .useExisting tn => [(c.1, tn)]

/-- The roots of what is to be inserted: the entrypoint, if a parent is given, and the children to
add. -/
def keptRoots (other : Hugr Op Meta) (parent : Option Nat) (children : List (Nat × Directive)) :
    List Nat :=
  (if parent.isSome then [other.entrypoint] else []) ++
  children.flatMap fun c => match c.2 with
    | .add _ => [c.1]
    | .useExisting _ => []

/-- The node is to be inserted. -/
def Kept (other : Hugr Op Meta) (parent : Option Nat) (children : List (Nat × Directive)) (x : Nat) :
    Prop :=
  ∃ r ∈ keptRoots other parent children, Above other.hier.parent x r

/-- The node of the host is to be removed. -/
def Gone (host : Hugr Op Meta) (children : List (Nat × Directive)) (m : Nat) : Prop :=
  ∃ e ∈ replacements children, Above host.hier.parent m e.1

/-- The directives are consistent: they are for children of the module root; no node of the host is
replaced twice; and if the entrypoint is to be inserted, this does not insert a node twice. -/
structure Consistent (other : Hugr Op Meta) (parent : Option Nat)
    (children : List (Nat × Directive)) : Prop where
  of_root : ∀ c ∈ children, other.hier.parent c.1 = some other.moduleRoot
  once : ((replacements children).map Prod.fst).Nodup
  entry_root : parent.isSome → other.entrypoint = other.moduleRoot → children = []
  entry_child : parent.isSome → other.entrypoint ∉ children.map Prod.fst
  entry_added : parent.isSome → ∀ c ∈ children, ∀ rs, c.2 = .add rs →
    ¬ Above other.hier.parent other.entrypoint c.1

/-- What an error says. -/
def LinkError.Explained (other : Hugr Op Meta) (parent : Option Nat)
    (children : List (Nat × Directive)) : LinkError → Prop
  | .childOfEntrypoint sn => parent.isSome ∧ other.entrypoint = other.moduleRoot ∧
      sn ∈ children.map Prod.fst
  | .childContainsEntrypoint sn => parent.isSome ∧ sn ∈ children.map Prod.fst ∧
      Above other.hier.parent other.entrypoint sn
  | .notChildOfRoot sn => sn ∈ children.map Prod.fst ∧
      other.hier.parent sn ≠ some other.moduleRoot
  | .nodeMultiplyReplaced tn sn sn' => (tn, sn) ∈ replacements children ∧
      (tn, sn') ∈ replacements children ∧ ¬ ((replacements children).map Prod.fst).Nodup

/-- The nodes of the host are as the directives suppose: the parent is not to be removed; the nodes to
replace are in the host, are not the module root nor above the entrypoint, and none is inside another;
the nodes to use are in the host, and not inside of a node to replace; and the links to move can be
moved, that is, their targets have no other link and the new sources have the ports. -/
structure Targets (host other : Hugr Op Meta) (parent : Option Nat)
    (children : List (Nat × Directive)) : Prop where
  parent_ok : ∀ p, parent = some p → host.live p = true ∧ ¬ Gone host children p
  replaced : ∀ e ∈ replacements children, host.live e.1 = true ∧ e.1 ≠ host.moduleRoot ∧
    ¬ Above host.hier.parent host.entrypoint e.1
  apart : ∀ e ∈ replacements children, ∀ d ∈ replacements children,
    Above host.hier.parent e.1 d.1 → e.1 = d.1
  used : ∀ e ∈ uses children, host.live e.2 = true ∧
    ∀ d ∈ replacements children, Above host.hier.parent e.2 d.1 → e.2 = d.1
  replaced_links : ∀ e ∈ replacements children, ∀ l ∈ host.links, l.src = e.1 →
    host.linkedOutputs l.dst l.dstPort = [(l.src, l.srcPort)] ∧ l.srcPort < other.outs e.2
  used_links : ∀ e ∈ uses children, ∀ l ∈ other.links, l.src = e.1 →
    other.linkedOutputs l.dst l.dstPort = [(l.src, l.srcPort)] ∧ l.srcPort < host.outs e.2 ∧
    ∀ sn, (e.2, sn) ∈ replacements children → l.srcPort < other.outs sn

/-- Where links from a node of the host come from now: from the node that replaced it, if any. -/
def hostSource (children : List (Nat × Directive)) (f : Nat → Nat) (n : Nat) : Nat :=
  match (replacements children).lookup n with
  | some sn => f sn
  | none => n

/-- Where links from a node of `other` come from now: from the node to use, if any. -/
def otherSource (children : List (Nat × Directive)) (f : Nat → Nat) (n : Nat) : Nat :=
  match (uses children).lookup n with
  | some tn => hostSource children f tn
  | none => f n

open Classical in
/-- `g` is the host with the nodes to insert added, `x` being `f x` now, and the nodes to replace
removed. `roots` are the entrypoint (if a parent is given) and the nodes of the directives, with the
nodes they were inserted below, in the order in which they were inserted. -/
structure Linked (host other : Hugr Op Meta) (parent : Option Nat) (children : List (Nat × Directive))
    (roots : List (Nat × Nat)) (f : Nat → Nat) (g : Hugr Op Meta) : Prop where
  fresh : ∀ x, Kept other parent children x → host.live (f x) = false
  injective : ∀ x y, Kept other parent children x → Kept other parent children y → f x = f y → x = y
  live : ∀ m, g.live m = true ↔ (host.live m = true ∧ ¬ Gone host children m) ∨
    ∃ x, Kept other parent children x ∧ f x = m
  host_node : ∀ m, host.live m = true → ¬ Gone host children m → g.ops m = host.ops m ∧
    g.ins m = host.ins m ∧ g.outs m = host.outs m ∧ g.metadata m = host.metadata m ∧
    g.hier.parent m = host.hier.parent m
  host_children : ∀ m, host.live m = true → ¬ Gone host children m → g.hier.children m =
    ((host.hier.children m).filter fun c => c ∉ (replacements children).map Prod.fst) ++
      (roots.filter fun e => e.2 = m ∧ e.1 ∈ keptRoots other parent children).map fun e => f e.1
  node : ∀ x, Kept other parent children x → g.ops (f x) = other.ops x ∧
    g.ins (f x) = other.ins x ∧ g.outs (f x) = other.outs x ∧
    g.hier.children (f x) = (other.hier.children x).map f
  links : g.links.Perm (
    ((host.links.filter fun l => ¬ Gone host children l.dst ∧
        (¬ Gone host children l.src ∨ l.src ∈ (replacements children).map Prod.fst)).map
      fun l => { l with src := hostSource children f l.src }) ++
    ((other.links.filter fun l => Kept other parent children l.dst ∧
        (Kept other parent children l.src ∨ l.src ∈ (uses children).map Prod.fst)).map
      fun l => { l with src := otherSource children f l.src, dst := f l.dst }))
  root_entry : g.moduleRoot = host.moduleRoot ∧ g.entrypoint = host.entrypoint

end Verif.Graph
