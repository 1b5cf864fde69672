import Mathlib.Logic.Function.Basic

/-!
# Model of the mutable Hugr: hierarchy, ports, links, operations and metadata

Sources: `/repo/hugr-core/src/hugr.rs`, `/repo/hugr-core/src/hugr/{hugrmut,internal,views}.rs`.

The graph and the hierarchy are those of the `portgraph` crate, whose source is not available here;
they are modelled by their documented behaviour:

* `Hierarchy`: for every index, a parent and an ordered list of children. It does not know which
  nodes are in the graph. Attaching fails if the node has a parent already, or if the new parent is
  the node or one of its descendants; inserting beside a node without parent fails.
* `MultiPortGraph`: the live nodes, the number of ports of each, and a list of links. `add_node`
  returns an index that is not in use. Which one is left open: every operation that creates a node
  takes the index as an argument, so a statement about all histories is a statement about all
  allocation strategies, including the real one, which reuses the indices of removed nodes.
* `UnmanagedDenseMap`: a total function (indices never written hold the default value).

A panic is `none`.
-/
namespace Verif.Graph

/-- `Function.update` with a boolean test, so that examples compute. -/
def upd {α : Type} (f : Nat → α) (k : Nat) (v : α) : Nat → α := fun i => if i = k then v else f i

/-! ## `portgraph::Hierarchy` -/

/-- The node hierarchy, `portgraph::Hierarchy`. -/
structure Hier where
  parent : Nat → Option Nat
  children : Nat → List Nat

/-- Is `n` met on the way up from `p` (including `p`)? Cycle check of `Hierarchy::push_child`;
`fuel` bounds the height of the hierarchy. -/
def Hier.onPath (h : Hier) : Nat → Nat → Nat → Bool
  | 0, p, n => p == n
  | fuel + 1, p, n =>
    p == n || match h.parent p with
      | none => false
      | some q => h.onPath fuel q n

/-- `Hierarchy::detach`. -/
def Hier.detach (h : Hier) (n : Nat) : Hier :=
  match h.parent n with
  | none => h
  | some p => { parent := upd h.parent n none, children := upd h.children p ((h.children p).erase n) }

/-- Can `n` be attached below `p`? (`AttachError::AlreadyAttached` and `AttachError::Cycle`.) -/
def Hier.canAttach (h : Hier) (fuel n p : Nat) : Bool :=
  (h.parent n).isNone && !h.onPath fuel p n

/-- `Hierarchy::push_child`. -/
def Hier.pushChild (h : Hier) (fuel n p : Nat) : Option Hier :=
  if h.canAttach fuel n p then
    some { parent := upd h.parent n (some p), children := upd h.children p (h.children p ++ [n]) }
  else none

/-- Put `n` just before `s` in a list. -/
def insertBeforeIn (s n : Nat) : List Nat → List Nat
  | [] => []
  | x :: xs => if x = s then n :: x :: xs else x :: insertBeforeIn s n xs

/-- Put `n` just after `s` in a list. -/
def insertAfterIn (s n : Nat) : List Nat → List Nat
  | [] => []
  | x :: xs => if x = s then x :: n :: xs else x :: insertAfterIn s n xs

/-- `Hierarchy::insert_before`. -/
def Hier.insertBefore (h : Hier) (fuel n s : Nat) : Option Hier :=
  match h.parent s with
  | none => none
  | some p =>
    if h.canAttach fuel n p then
      some { parent := upd h.parent n (some p)
             children := upd h.children p (insertBeforeIn s n (h.children p)) }
    else none

/-- `Hierarchy::insert_after`. -/
def Hier.insertAfter (h : Hier) (fuel n s : Nat) : Option Hier :=
  match h.parent s with
  | none => none
  | some p =>
    if h.canAttach fuel n p then
      some { parent := upd h.parent n (some p)
             children := upd h.children p (insertAfterIn s n (h.children p)) }
    else none

/-- `Hierarchy::remove`: detach the node from its parent, and its children from it. -/
def Hier.remove (h : Hier) (n : Nat) : Hier :=
  let h1 := h.detach n
  { parent := fun i => if i ∈ h1.children n then none else h1.parent i
    children := upd h1.children n [] }

/-! ## Hugr -/

/-- A link from an outgoing port to an incoming port. -/
structure Link where
  src : Nat
  srcPort : Nat
  dst : Nat
  dstPort : Nat
deriving DecidableEq, Repr

/-- `Direction`. -/
inductive Dir where
  | incoming
  | outgoing
deriving DecidableEq, Repr

/-- What the graph operations need to know of operations: the default operation and the numbers of
ports (`OpType::input_count`, `OpType::output_count`). -/
structure OpInfo (Op : Type) where
  default : Op
  inputs : Op → Nat
  outputs : Op → Nat

/-- `Hugr`, hugr.rs:42-66. The extension registry is modelled in `Verif.Registry`. `cap` is the node
capacity of the graph: no index from `cap` on was ever used. -/
structure Hugr (Op Meta : Type) where
  cap : Nat
  live : Nat → Bool
  ins : Nat → Nat
  outs : Nat → Nat
  links : List Link
  hier : Hier
  moduleRoot : Nat
  entrypoint : Nat
  ops : Nat → Op
  metadata : Nat → Option (List (String × Meta))

variable {Op Meta : Type}

/-- `HugrView::nodes`, views.rs: the live nodes, in index order. -/
def Hugr.nodes (h : Hugr Op Meta) : List Nat := (List.range h.cap).filter h.live

/-- `HugrView::children`. -/
def Hugr.children (h : Hugr Op Meta) (n : Nat) : List Nat := h.hier.children n

/-- `HugrView::get_parent`, views.rs:584-589. -/
def Hugr.getParent (h : Hugr Op Meta) (n : Nat) : Option Nat :=
  if h.live n && n != h.moduleRoot then h.hier.parent n else none

/-- `HugrView::num_ports`. -/
def Hugr.numPorts (h : Hugr Op Meta) (n : Nat) : Dir → Nat
  | .incoming => h.ins n
  | .outgoing => h.outs n

/-- `HugrView::linked_ports`, views.rs:632-650, for an outgoing port. -/
def Hugr.linkedInputs (h : Hugr Op Meta) (n port : Nat) : List (Nat × Nat) :=
  (h.links.filter fun l => l.src = n && l.srcPort = port).map fun l => (l.dst, l.dstPort)

/-- `HugrView::linked_ports`, views.rs:632-650, for an incoming port. -/
def Hugr.linkedOutputs (h : Hugr Op Meta) (n port : Nat) : List (Nat × Nat) :=
  (h.links.filter fun l => l.dst = n && l.dstPort = port).map fun l => (l.src, l.srcPort)

/-- `Hugr::new`, hugr.rs:97-99: a module, alone. -/
def Hugr.new (I : OpInfo Op) (module : Op) : Hugr Op Meta where
  cap := 1
  live := fun n => n == 0
  ins := fun _ => 0
  outs := fun _ => 0
  links := []
  hier := { parent := fun _ => none, children := fun _ => [] }
  moduleRoot := 0
  entrypoint := 0
  ops := upd (fun _ => I.default) 0 module
  metadata := fun _ => none

/-- `Hugr::add_node`, hugr.rs:320-327. The metadata and the hierarchy are not touched. `none` if the
index is in use: the allocator never returns such an index. -/
def Hugr.addNode (I : OpInfo Op) (h : Hugr Op Meta) (idx : Nat) (op : Op) : Option (Hugr Op Meta) :=
  if h.live idx then none
  else some { h with
    cap := max h.cap (idx + 1)
    live := upd h.live idx true
    ins := upd h.ins idx (I.inputs op)
    outs := upd h.outs idx (I.outputs op)
    ops := upd h.ops idx op }

/-- Replacing the hierarchy by the result of an operation on it, or panicking (`expect`). -/
def Hugr.withHier (h : Hugr Op Meta) : Option Hier → Option (Hugr Op Meta)
  | none => none
  | some r => some { h with hier := r }

/-- `set_entrypoint`, hugrmut.rs:433-436. -/
def Hugr.setEntrypoint (h : Hugr Op Meta) (n : Nat) : Option (Hugr Op Meta) :=
  if h.live n then some { h with entrypoint := n } else none

/-- `add_node_with_parent`, hugrmut.rs:461-467. The parent is not checked to be in the graph. -/
def Hugr.addNodeWithParent (I : OpInfo Op) (h : Hugr Op Meta) (idx parent : Nat) (op : Op) :
    Option (Hugr Op Meta) :=
  match h.addNode I idx op with
  | none => none
  | some h1 => h1.withHier (h1.hier.pushChild h1.cap idx parent)

/-- `add_node_before`, hugrmut.rs:469-475. -/
def Hugr.addNodeBefore (I : OpInfo Op) (h : Hugr Op Meta) (idx sibling : Nat) (op : Op) :
    Option (Hugr Op Meta) :=
  match h.addNode I idx op with
  | none => none
  | some h1 => h1.withHier (h1.hier.insertBefore h1.cap idx sibling)

/-- `add_node_after`, hugrmut.rs:477-483. -/
def Hugr.addNodeAfter (I : OpInfo Op) (h : Hugr Op Meta) (idx sibling : Nat) (op : Op) :
    Option (Hugr Op Meta) :=
  match h.addNode I idx op with
  | none => none
  | some h1 => h1.withHier (h1.hier.insertAfter h1.cap idx sibling)

/-- `check_valid_non_entrypoint`, views.rs:828-830. -/
def Hugr.validNonEntrypoint (h : Hugr Op Meta) (n : Nat) : Bool := h.live n && n != h.entrypoint

/-- `remove_node`, hugrmut.rs:485-490. `MultiPortGraph::remove_node` removes the links of the node.
The metadata is not touched. -/
def Hugr.removeNode (I : OpInfo Op) (h : Hugr Op Meta) (n : Nat) : Option (Hugr Op Meta) :=
  if h.validNonEntrypoint n then
    some { h with
      live := upd h.live n false
      links := h.links.filter fun l => l.src != n && l.dst != n
      hier := h.hier.remove n
      ops := upd h.ops n I.default }
  else none

/-- The loop of `remove_subtree`, hugrmut.rs:494-499. Each round removes a live node or panics, so
`fuel` larger than the number of live nodes is never used up. -/
def Hugr.removeQueue (I : OpInfo Op) : Nat → Hugr Op Meta → List Nat → Option (Hugr Op Meta)
  | _, h, [] => some h
  | 0, _, _ :: _ => none
  | fuel + 1, h, n :: queue =>
    match h.removeNode I n with
    | none => none
    | some h1 => Hugr.removeQueue I fuel h1 (queue ++ h.children n)

/-- `remove_subtree`, hugrmut.rs:492-500. -/
def Hugr.removeSubtree (I : OpInfo Op) (h : Hugr Op Meta) (n : Nat) : Option (Hugr Op Meta) :=
  if h.validNonEntrypoint n then h.removeQueue I (h.cap + 1) [n] else none

/-- `connect`, hugrmut.rs:502-521. -/
def Hugr.connect (h : Hugr Op Meta) (l : Link) : Option (Hugr Op Meta) :=
  if h.live l.src && decide (l.srcPort < h.outs l.src) &&
      h.live l.dst && decide (l.dstPort < h.ins l.dst) then
    some { h with links := h.links ++ [l] }
  else none

/-- Is the port an endpoint of the link? -/
def Link.at (l : Link) (n : Nat) (dir : Dir) (port : Nat) : Bool :=
  match dir with
  | .incoming => l.dst == n && l.dstPort == port
  | .outgoing => l.src == n && l.srcPort == port

/-- `disconnect`, hugrmut.rs:523-532. -/
def Hugr.disconnect (h : Hugr Op Meta) (n : Nat) (dir : Dir) (port : Nat) : Option (Hugr Op Meta) :=
  if h.live n && decide (port < h.numPorts n dir) then
    some { h with links := h.links.filter fun l => !l.at n dir port }
  else none

/-- `MultiPortGraph::set_num_ports`: ports are added or removed at the end; links of removed ports
are removed. -/
def Hugr.resizePorts (h : Hugr Op Meta) (n incoming outgoing : Nat) : Hugr Op Meta :=
  { h with
    ins := upd h.ins n incoming
    outs := upd h.outs n outgoing
    links := h.links.filter fun l =>
      (l.dst != n || decide (l.dstPort < incoming)) && (l.src != n || decide (l.srcPort < outgoing)) }

/-- `set_num_ports`, internal.rs:283-287. -/
def Hugr.setNumPorts (h : Hugr Op Meta) (n incoming outgoing : Nat) : Option (Hugr Op Meta) :=
  if h.live n then some (h.resizePorts n incoming outgoing) else none

/-- `usize::saturating_add_signed`. Numbers of ports are not bounded in the model. -/
def addSigned (num : Nat) (amount : Int) : Nat := (num + amount).toNat

/-- `add_ports`, internal.rs:289-306; the second result is the range of new ports. -/
def Hugr.addPorts (h : Hugr Op Meta) (n : Nat) (dir : Dir) (amount : Int) :
    Option (Hugr Op Meta × (Nat × Nat)) :=
  if h.live n then
    match dir with
    | .incoming =>
      let new := addSigned (h.ins n) amount
      some (h.resizePorts n new (h.outs n), (h.ins n, new))
    | .outgoing =>
      let new := addSigned (h.outs n) amount
      some (h.resizePorts n (h.ins n) new, (h.outs n, new))
  else none

/-- Move one end of a link to another port. -/
def Link.moveTo (l : Link) (dir : Dir) (port : Nat) : Link :=
  match dir with
  | .incoming => { l with dstPort := port }
  | .outgoing => { l with srcPort := port }

/-- One round of the loop of `insert_ports`, internal.rs:320-339: unlink the port, and link what it
was linked to with the port `amount` higher. -/
def Hugr.shiftPort (h : Hugr Op Meta) (n : Nat) (dir : Dir) (amount port : Nat) : Hugr Op Meta :=
  { h with links := (h.links.filter fun l => !l.at n dir port) ++
      (h.links.filter fun l => l.at n dir port).map fun l => l.moveTo dir (port + amount) }

/-- The ports `index..old`, from the last to the first, internal.rs:320. -/
def portsDown (index old : Nat) : List Nat := ((List.range (old - index)).map (index + ·)).reverse

/-- `insert_ports`, internal.rs:308-341. -/
def Hugr.insertPorts (h : Hugr Op Meta) (n : Nat) (dir : Dir) (index amount : Nat) :
    Option (Hugr Op Meta × (Nat × Nat)) :=
  match h.addPorts n dir amount with
  | none => none
  | some (h1, _) =>
    some ((portsDown index (h.numPorts n dir)).foldl (fun g p => g.shiftPort n dir amount p) h1,
      (index, index + amount))

/-- `set_parent`, internal.rs:343-350. -/
def Hugr.setParent (h : Hugr Op Meta) (n parent : Nat) : Option (Hugr Op Meta) :=
  if h.live parent && h.live n then
    h.withHier ((h.hier.detach n).pushChild h.cap n parent)
  else none

/-- `move_after_sibling`, internal.rs:352-359. -/
def Hugr.moveAfterSibling (h : Hugr Op Meta) (n after : Nat) : Option (Hugr Op Meta) :=
  if h.validNonEntrypoint n && h.validNonEntrypoint after then
    h.withHier ((h.hier.detach n).insertAfter h.cap n after)
  else none

/-- `move_before_sibling`, internal.rs:361-368. -/
def Hugr.moveBeforeSibling (h : Hugr Op Meta) (n before : Nat) : Option (Hugr Op Meta) :=
  if h.validNonEntrypoint n && h.validNonEntrypoint before then
    h.withHier ((h.hier.detach n).insertBefore h.cap n before)
  else none

/-- `replace_op`, internal.rs:370-373, returning the old operation. The ports are not changed. -/
def Hugr.replaceOp (h : Hugr Op Meta) (n : Nat) (op : Op) : Option (Hugr Op Meta × Op) :=
  if h.live n then some ({ h with ops := upd h.ops n op }, h.ops n) else none

/-! ### Metadata -/

/-- `serde_json::Map::insert`. -/
def metaInsert (k : String) (v : Meta) : List (String × Meta) → List (String × Meta)
  | [] => [(k, v)]
  | (k', v') :: m => if k' = k then (k, v) :: m else (k', v') :: metaInsert k v m

/-- `set_metadata`, hugrmut.rs:445-453. -/
def Hugr.setMetadata (h : Hugr Op Meta) (n : Nat) (k : String) (v : Meta) : Option (Hugr Op Meta) :=
  if h.live n then
    some { h with metadata := upd h.metadata n (some (metaInsert k v ((h.metadata n).getD []))) }
  else none

/-- `remove_metadata`, hugrmut.rs:455-459. -/
def Hugr.removeMetadata (h : Hugr Op Meta) (n : Nat) (k : String) : Option (Hugr Op Meta) :=
  if h.live n then
    some { h with
      metadata := upd h.metadata n (some (((h.metadata n).getD []).filter fun e => e.1 != k)) }
  else none

/-- `get_metadata`, views.rs, through `node_metadata_map`, internal.rs:135-140. The outer `none` is
the panic. -/
def Hugr.getMetadata (h : Hugr Op Meta) (n : Nat) (k : String) : Option (Option Meta) :=
  if h.live n then some (((h.metadata n).getD []).lookup k) else none

/-! ### Histories -/

/-- One call of the editing interface. `idx` is the index the allocator returns. -/
inductive Cmd (Op Meta : Type) where
  | setEntrypoint (n : Nat)
  | addNodeWithParent (idx parent : Nat) (op : Op)
  | addNodeBefore (idx sibling : Nat) (op : Op)
  | addNodeAfter (idx sibling : Nat) (op : Op)
  | setParent (n parent : Nat)
  | moveBeforeSibling (n before : Nat)
  | moveAfterSibling (n after : Nat)
  | removeNode (n : Nat)
  | removeSubtree (n : Nat)
  | connect (l : Link)
  | disconnect (n : Nat) (dir : Dir) (port : Nat)
  | setNumPorts (n incoming outgoing : Nat)
  | addPorts (n : Nat) (dir : Dir) (amount : Int)
  | insertPorts (n : Nat) (dir : Dir) (index amount : Nat)
  | replaceOp (n : Nat) (op : Op)
  | setMetadata (n : Nat) (k : String) (v : Meta)
  | removeMetadata (n : Nat) (k : String)

/-- The effect of one call; `none` is a panic. -/
def step (I : OpInfo Op) (h : Hugr Op Meta) : Cmd Op Meta → Option (Hugr Op Meta)
  | .setEntrypoint n => h.setEntrypoint n
  | .addNodeWithParent idx parent op => h.addNodeWithParent I idx parent op
  | .addNodeBefore idx sibling op => h.addNodeBefore I idx sibling op
  | .addNodeAfter idx sibling op => h.addNodeAfter I idx sibling op
  | .setParent n parent => h.setParent n parent
  | .moveBeforeSibling n before => h.moveBeforeSibling n before
  | .moveAfterSibling n after => h.moveAfterSibling n after
  | .removeNode n => h.removeNode I n
  | .removeSubtree n => h.removeSubtree I n
  | .connect l => h.connect l
  | .disconnect n dir port => h.disconnect n dir port
  | .setNumPorts n i o => h.setNumPorts n i o
  | .addPorts n dir amount => (h.addPorts n dir amount).map Prod.fst
  | .insertPorts n dir index amount => (h.insertPorts n dir index amount).map Prod.fst
  | .replaceOp n op => (h.replaceOp n op).map Prod.fst
  | .setMetadata n k v => h.setMetadata n k v
  | .removeMetadata n k => h.removeMetadata n k

/-- A history of calls; `none` if one of them panics. -/
def run (I : OpInfo Op) : Hugr Op Meta → List (Cmd Op Meta) → Option (Hugr Op Meta)
  | h, [] => some h
  | h, c :: cs =>
    match step I h c with
    | none => none
    | some h' => run I h' cs

end Verif.Graph
