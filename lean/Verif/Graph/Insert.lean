import Verif.Graph.Bfs

/-!
# Model of inserting one Hugr into another

Source: `/repo/hugr-core/src/hugr/hugrmut.rs:191-330` (the trait methods) and `547-735`.
-/
namespace Verif.Graph

variable {Op Meta : Type}

/-- The outcome of an insertion. The host is changed in place, so that it is also returned with the
error `InsertForestError::DuplicateNode`. -/
inductive InsertResult (Op Meta : Type) where
  | panic
  | duplicate (host : Hugr Op Meta)
  | alreadyCopied (host : Hugr Op Meta)
  | done (host : Hugr Op Meta) (map : List (Nat × Nat))

/-- The links made for a node, hugrmut.rs:706-726, in order: `other.node_inputs(old)` with
`other.linked_outputs`, then `other.node_outputs(old)` with `other.linked_inputs`. Neighbours that
are not in the map (yet) are passed over; a loop is made in the first round only. -/
def newLinks (other : Hugr Op Meta) (map : List (Nat × Nat)) (old new : Nat) : List Link :=
  (List.range (other.ins old)).flatMap (fun tgt =>
    (other.linkedOutputs old tgt).filterMap fun q =>
      (map.lookup q.1).map fun neigh => { src := neigh, srcPort := q.2, dst := new, dstPort := tgt }) ++
  (List.range (other.outs old)).flatMap (fun src =>
    (other.linkedInputs old src).filterMap fun q =>
      if q.1 = old then none
      else (map.lookup q.1).map fun neigh =>
        { src := new, srcPort := src, dst := neigh, dstPort := q.2 })

/-- `connect`, for each link. -/
def connectAll : Hugr Op Meta → List Link → Option (Hugr Op Meta)
  | h, [] => some h
  | h, l :: ls =>
    match h.connect l with
    | none => none
    | some h' => connectAll h' ls

/-- The first loop of `insert_forest_internal`, hugrmut.rs:694-727. Each node comes with the index
`add_node` returns for it. -/
def insertNodes (I : OpInfo Op) (other : Hugr Op Meta) :
    List (Nat × Nat) → Hugr Op Meta → List (Nat × Nat) → InsertResult Op Meta
  | [], host, map => .done host map
  | (old, new) :: rest, host, map =>
    match host.addNode I new I.default with
    | none => .panic
    | some h1 =>
      if (map.lookup old).isSome then .duplicate h1
      else
        match h1.setNumPorts new (other.ins old) (other.outs old) with
        | none => .panic
        | some h2 =>
          match connectAll h2 (newLinks other ((old, new) :: map) old new) with
          | none => .panic
          | some h3 => insertNodes I other rest h3 ((old, new) :: map)

/-- The second loop, hugrmut.rs:728-730. -/
def attachRoots (map : List (Nat × Nat)) : List (Nat × Nat) → Hugr Op Meta → Option (Hugr Op Meta)
  | [], h => some h
  | (r, p) :: roots, h =>
    match map.lookup r with
    | none => none
    | some n =>
      match h.setParent n p with
      | none => none
      | some h' => attachRoots map roots h'

/-- The third loop, hugrmut.rs:731-738. -/
def attachRest (other : Hugr Op Meta) (map : List (Nat × Nat)) :
    List Nat → Hugr Op Meta → Option (Hugr Op Meta)
  | [], h => some h
  | old :: rest, h =>
    match map.lookup old with
    | none => none
    | some new =>
      match h.getParent new with
      | some _ => attachRest other map rest h
      | none =>
        match other.getParent old with
        | none => none
        | some q =>
          match map.lookup q with
          | none => none
          | some newParent =>
            match h.setParent new newParent with
            | none => none
            | some h' => attachRest other map rest h'

/-- `insert_forest_internal`, hugrmut.rs:681-740. -/
def insertForestInternal (I : OpInfo Op) (host other : Hugr Op Meta) (pairs roots : List (Nat × Nat)) :
    InsertResult Op Meta :=
  match insertNodes I other pairs host [] with
  | .done h1 map =>
    match attachRoots map roots h1 with
    | none => .panic
    | some h2 =>
      match attachRest other map (pairs.map Prod.fst) h2 with
      | none => .panic
      | some h3 => .done h3 map
  | r => r

/-- `insert_view_forest`, hugrmut.rs:590-615: operations are copied, and metadata if there is any.
The extensions are modelled in `Verif.Registry`. -/
def Hugr.insertViewForest (I : OpInfo Op) (host other : Hugr Op Meta)
    (pairs roots : List (Nat × Nat)) : InsertResult Op Meta :=
  match insertForestInternal I host other pairs roots with
  | .done h map =>
    .done { h with
      ops := map.foldl (fun ops e => upd ops e.2 (other.ops e.1)) h.ops
      metadata := map.foldl (fun m e =>
        if ((other.metadata e.1).getD []).isEmpty then m
        else upd m e.2 (some ((other.metadata e.1).getD []))) h.metadata } map
  | r => r

/-- `insert_from_view`, hugrmut.rs:233-249. -/
def Hugr.insertFromView (I : OpInfo Op) (host : Hugr Op Meta) (root : Nat) (other : Hugr Op Meta)
    (news : List Nat) : InsertResult Op Meta :=
  host.insertViewForest I other ((other.descendants other.entrypoint).zip news)
    [(other.entrypoint, root)]

/-- The check of `insert_forest`, hugrmut.rs:553-561, for one root: is one of its ancestors a root
too? `fuel` bounds the height. -/
def belowRoot (other : Hugr Op Meta) (roots : List (Nat × Nat)) : Nat → Nat → Bool
  | 0, _ => false
  | fuel + 1, n =>
    match other.getParent n with
    | none => false
    | some p => (roots.lookup p).isSome || belowRoot other roots fuel p

/-- `insert_forest`, hugrmut.rs:547-590: operations and metadata are taken from `other`, each from a
different node, so that taking is copying. `roots` are the entries of the `HashMap`, in the order of
its iteration. -/
def Hugr.insertForest (I : OpInfo Op) (host other : Hugr Op Meta) (roots : List (Nat × Nat))
    (news : List Nat) : InsertResult Op Meta :=
  if roots.any fun r => belowRoot other roots (other.cap + 1) r.1 then .alreadyCopied host
  else
    match insertForestInternal I host other
        ((roots.flatMap fun r => other.descendants r.1).zip news) roots with
    | .done h map =>
      .done { h with
        ops := map.foldl (fun ops e => upd ops e.2 (other.ops e.1)) h.ops
        metadata := map.foldl (fun m e => upd m e.2 (other.metadata e.1)) h.metadata } map
    | _ => .panic

/-- `insert_region`, hugrmut.rs:206-220; `insert_hugr`, hugrmut.rs:191-194, is this for the
entrypoint. -/
def Hugr.insertRegion (I : OpInfo Op) (host : Hugr Op Meta) (root : Nat) (other : Hugr Op Meta)
    (region : Nat) (news : List Nat) : InsertResult Op Meta :=
  host.insertForest I other [(region, root)] news

end Verif.Graph
