import Verif.Patch.PeelLemmas

/-!
# Model of `OutlineCfg`

Source: `/repo/hugr-core/src/hugr/patch/outline_cfg.rs`.
-/
namespace Verif.Patch

open Verif.Graph Verif.Ops Verif.Passes Verif.Validate

variable {Meta : Type}

/-- `OutlineCfgError`, outline_cfg.rs:209-235. -/
inductive OutlineError where
  | notSiblings
  | parentNotCfg (n : Nat)
  | multipleEntryNodes (a b : Nat)
  | multipleExitNodes (a b : Nat)
  | multipleExitEdges (n : Nat) (targets : List Nat)
  | noEntryNode
  | noExitNode

/-- The indices of the new nodes: the block, its input and output, the control-flow graph in it, the exit of that,
a constant and the operation that loads it. -/
structure OutlineNew where
  block : Nat
  inp : Nat
  out : Nat
  cfg : Nat
  exit : Nat
  const : Nat
  load : Nat

/-- The new nodes. -/
def OutlineNew.news (N : OutlineNew) : List Nat := [N.block, N.inp, N.out, N.cfg, N.exit, N.const, N.load]

/-- The loop of `compute_entry_exit`, outline_cfg.rs:56-83. The state are the entry, if found, and the exit with the
block it goes to, if found. -/
def scanBlocks (h : Hugr Ops.Op Meta) (bs : List Nat) (cfgEntry : Nat) :
    List Nat → Option Nat → Option (Nat × Nat) → Except OutlineError (Option Nat × Option (Nat × Nat))
  | [], entry, exit => .ok (entry, exit)
  | n :: ns, entry, exit =>
    if (n = cfgEntry ∨ ∃ p ∈ inputNeighbours h n, p ∉ bs) ∧ entry.isSome then
      .error (.multipleEntryNodes (entry.getD 0) n)
    else
      let entry' := if n = cfgEntry ∨ ∃ p ∈ inputNeighbours h n, p ∉ bs then some n else entry
      match (outputNeighbours h n).filter (· ∉ bs) with
      | [] => scanBlocks h bs cfgEntry ns entry' exit
      | [o] =>
        match exit with
        | none => scanBlocks h bs cfgEntry ns entry' (some (n, o))
        | some (prev, _) => .error (.multipleExitNodes prev n)
      | os => .error (.multipleExitEdges n os)

/-- `compute_entry_exit`, outline_cfg.rs:33-89. `bs` are the blocks in the order in which the set is iterated. -/
def computeEntryExit (h : Hugr Ops.Op Meta) (bs : List Nat) : Except OutlineError (Nat × Nat × Nat) :=
  match (bs.map h.getParent).dedup with
  | [some cfg] =>
    match h.ops cfg with
    | .cfg _ =>
      match h.children cfg with
      | [] => .error .notSiblings
      | cfgEntry :: _ =>
        match scanBlocks h bs cfgEntry bs none none with
        | .error e => .error e
        | .ok (some e, some (x, o)) => .ok (e, x, o)
        | .ok (none, _) => .error .noEntryNode
        | .ok (_, none) => .error .noExitNode
    | _ => .error (.parentNotCfg cfg)
  | _ => .error .notSiblings

/-- Nodes are added, each with its parent. -/
def addNodes (h : Hugr Ops.Op Meta) : List (Nat × Nat × Ops.Op) → Option (Hugr Ops.Op Meta)
  | [] => some h
  | e :: es =>
    match h.addNodeWithParent opsInfo.toOpInfo e.1 e.2.1 e.2.2 with
    | none => none
    | some g => addNodes g es

/-- The nodes of the new block, outline_cfg.rs:136-145, with the builder functions used there,
hugr-core/src/builder/cfg.rs:165-186 and 366-396. -/
def OutlineNew.nodes (N : OutlineNew) (G : Nat) (ins outs : List Types.Ty) : List (Nat × Nat × Ops.Op) :=
  [ (N.block, G, .dataflowBlock ins outs [[]]), (N.inp, N.block, .input ins),
    (N.out, N.block, .output (sumOf [[]] :: outs)), (N.cfg, N.block, .cfg ⟨ins, outs⟩),
    (N.exit, N.cfg, .exitBlock outs), (N.const, N.block, .const (sumOf [[]])),
    (N.load, N.block, .loadConstant (sumOf [[]])) ]

/-- The links in the new block. -/
def OutlineNew.wires (N : OutlineNew) (numIns numOuts : Nat) : List Link :=
  straight N.inp N.cfg numIns ++ [⟨N.const, 0, N.load, 0⟩, ⟨N.load, 0, N.out, 0⟩] ++
    (List.range numOuts).map fun p => ⟨N.cfg, p, N.out, p + 1⟩

/-- The new block is inserted, outline_cfg.rs:135-152. Simplified: the block is not built apart and inserted, but its
nodes are added where they will be; C45 says that insertion gives a copy. -/
def addBlock (h : Hugr Ops.Op Meta) (G : Nat) (ins outs : List Types.Ty) (N : OutlineNew) : Option (Hugr Ops.Op Meta) :=
  match addNodes h (N.nodes G ins outs) with
  | none => none
  | some h1 => Graph.connectAll h1 (N.wires ins.length outs.length)

/-- Links that start at the given ports go to `B` instead, outline_cfg.rs:158-163. -/
def retarget (B : Nat) (h : Hugr Ops.Op Meta) : List (Nat × Nat) → Option (Hugr Ops.Op Meta)
  | [] => some h
  | s :: ss =>
    match h.disconnect s.1 .outgoing s.2 with
    | none => none
    | some h1 =>
      match h1.connect ⟨s.1, s.2, B, 0⟩ with
      | none => none
      | some h2 => retarget B h2 ss

/-- Steps 3 of `apply_hugr_mut`, outline_cfg.rs:154-168. -/
def entryEdges (h : Hugr Ops.Op Meta) (bs : List Nat) (G entry B : Nat) : Option (Hugr Ops.Op Meta) :=
  if h.ins entry = 1 then
    match retarget B h ((h.linkedOutputs entry 0).filter fun s => s.1 ∉ bs) with
    | none => none
    | some h1 =>
      match h.children G with
      | [] => none
      | outer :: _ => if entry = outer then h1.moveBeforeSibling B outer else some h1
  else none

/-- The port of `exit` that leads to `outside`, outline_cfg.rs:172-181. -/
def exitPort (h : Hugr Ops.Op Meta) (exit outside : Nat) : Option Nat :=
  if (List.range (h.outs exit)).all fun p => (h.linkedInputs exit p).map Prod.snd = [0] then
    match (List.range (h.outs exit)).filter fun p => h.linkedInputs exit p = [(outside, 0)] with
    | [p] => some p
    | _ => none
  else none

/-- Steps 4(a), 5 and 4(b), outline_cfg.rs:170-203. -/
def exitEdges (h : Hugr Ops.Op Meta) (bs : List Nat) (entry exit outside : Nat) (N : OutlineNew) :
    Option (Hugr Ops.Op Meta) :=
  match exitPort h exit outside with
  | none => none
  | some port =>
    match h.disconnect exit .outgoing port with
    | none => none
    | some h1 =>
      match h1.connect ⟨N.block, 0, outside, 0⟩ with
      | none => none
      | some h2 =>
        match h2.children N.cfg with
        | [inner] =>
          match h2.moveBeforeSibling entry inner with
          | none => none
          | some h3 =>
            match each (fun g n => g.setParent n N.cfg) h3 (bs.filter (· ≠ entry)) with
            | none => none
            | some h4 => h4.connect ⟨exit, port, inner, 0⟩
        | _ => none

/-- The outcome of `OutlineCfg`. -/
inductive Outlining (Meta : Type) where
  | ok (h : Hugr Ops.Op Meta)
  | error (e : OutlineError)
  | panic

/-- `OutlineCfg::apply_hugr_mut`, outline_cfg.rs:115-206. -/
def outlineCfg (h : Hugr Ops.Op Meta) (bs : List Nat) (N : OutlineNew) : Outlining Meta :=
  match computeEntryExit h bs with
  | .error e => .error e
  | .ok (entry, exit, outside) =>
    match h.ops entry, h.getParent entry with
    | .dataflowBlock ins _ _, some G =>
      match (match h.ops outside with
        | .dataflowBlock ins _ _ => some ins
        | .exitBlock outs => some outs
        | _ => none) with
      | none => .panic
      | some outs =>
        match addBlock h G ins outs N with
        | none => .panic
        | some h1 =>
          match entryEdges h1 bs G entry N.block with
          | none => .panic
          | some h2 =>
            match exitEdges h2 bs entry exit outside N with
            | none => .panic
            | some h3 => .ok h3
    | _, _ => .panic

/-! ## Specification -/

/-- The blocks `bs` of the control-flow graph `G` are entered at `entry` and left by the link from the port `port` of
`exit` to `outside`. -/
structure SingleEntryExit (h : Hugr Ops.Op Meta) (G : Nat) (bs : List Nat) (entry exit port outside : Nat) : Prop where
  op : ∃ sig, h.ops G = .cfg sig
  siblings : ∀ b ∈ bs, h.hier.parent b = some G
  once : bs.Nodup
  entry_mem : entry ∈ bs
  exit_mem : exit ∈ bs
  /-- Control comes from outside only to the entry: by a link, or because the graph starts there. -/
  enters : ∀ b ∈ bs, ((h.children G).head? = some b ∨ ∃ l ∈ h.links, l.dst = b ∧ l.src ∉ bs) ↔ b = entry
  /-- One link leaves the blocks. -/
  leaves : ∀ l ∈ h.links, l.src ∈ bs → (l.dst ∉ bs ↔ l.src = exit ∧ l.srcPort = port)
  left : ⟨exit, port, outside, 0⟩ ∈ h.links
  outside_not : outside ∉ bs

/-- What a block is given, and what a control-flow graph returns at its exit. -/
def BlockInput (op : Ops.Op) (row : List Types.Ty) : Prop :=
  (∃ other rows, op = .dataflowBlock row other rows) ∨ op = .exitBlock row

/-- Where a link of a block goes now. -/
def OutlineNew.redirect (N : OutlineNew) (bs : List Nat) (entry exit port : Nat) (l : Link) : Link :=
  if l.dst = entry ∧ l.src ∉ bs then { l with dst := N.block, dstPort := 0 }
  else if l.src = exit ∧ l.srcPort = port then { l with dst := N.exit, dstPort := 0 }
  else l

/-- `g` is `h` with the blocks `bs` of `G` moved to a control-flow graph in a new block of `G`. -/
structure Outlined (h : Hugr Ops.Op Meta) (G : Nat) (bs : List Nat) (entry exit port outside : Nat)
    (ins outs : List Types.Ty) (N : OutlineNew) (g : Hugr Ops.Op Meta) : Prop where
  live : ∀ x, g.live x = true ↔ h.live x = true ∨ x ∈ N.news
  /-- The new nodes; all others are as before. -/
  new : ∀ e ∈ N.nodes G ins outs, g.ops e.1 = e.2.2 ∧ g.ins e.1 = opsInfo.inputs e.2.2 ∧ g.outs e.1 = opsInfo.outputs e.2.2
  old : ∀ x, x ∉ N.news → g.ops x = h.ops x ∧ g.ins x = h.ins x ∧ g.outs x = h.outs x
  /-- The blocks are in the new control-flow graph, with its exit; the new block is where the blocks were. -/
  childrenCfg : g.children N.cfg = entry :: N.exit :: bs.filter (· ≠ entry)
  childrenBlock : g.children N.block = [N.inp, N.out, N.cfg, N.const, N.load]
  childrenG : g.children G = if (h.children G).head? = some entry
    then N.block :: (h.children G).filter (· ∉ bs) else (h.children G).filter (· ∉ bs) ++ [N.block]
  children : ∀ x, x ≠ N.cfg → x ≠ N.block → x ≠ G → g.children x = h.children x
  links : g.links.Perm (h.links.map (N.redirect bs entry exit port) ++ N.wires ins.length outs.length ++
    [⟨N.block, 0, outside, 0⟩])
  metadata : g.metadata = h.metadata
  moduleRoot : g.moduleRoot = h.moduleRoot
  entrypoint : g.entrypoint = h.entrypoint

end Verif.Patch
