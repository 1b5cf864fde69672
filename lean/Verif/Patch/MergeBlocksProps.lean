import Verif.Patch.MergeBlocksHugr
import Verif.Patch.ReplaceApplied

/-!
# C79: merging two basic blocks
-/
namespace Verif.Patch

open Verif.Graph Verif.Ops Verif.Passes Verif.Validate Verif.Dataflow

variable {Meta : Type} {h : Hugr Ops.Op Meta} {C : Context}

/-! ## Specification -/

/-- The nodes that come in: a block, its input, its output, a dataflow graph for each of the blocks, and an operation that
unpacks the tuple that the first passes on. -/
structure NewNodes where
  block : Nat
  input : Nat
  output : Nat
  first : Nat
  second : Nat
  unpack : Nat

def NewNodes.all (m : NewNodes) : List Nat := [m.block, m.input, m.output, m.first, m.second, m.unpack]

/-- The links inside the new block: its inputs go to the first dataflow graph. The first output of this is unpacked, and
what is in it goes with the other outputs to the second dataflow graph. The outputs of this are those of the block. -/
def NewNodes.Inside (m : NewNodes) (pin row pother sother : List Types.Ty) (l : Link) : Prop :=
  (∃ i < pin.length, l = ⟨m.input, i, m.first, i⟩) ∨ l = ⟨m.first, 0, m.unpack, 0⟩ ∨
  (∃ i < row.length, l = ⟨m.unpack, i, m.second, i⟩) ∨
  (∃ j < pother.length, l = ⟨m.first, 1 + j, m.second, row.length + j⟩) ∨
  ∃ i < sother.length + 1, l = ⟨m.second, i, m.output, i⟩

/-- Blocks `pred` and `succ` are merged: `pred` passes `row` and `pother`, and `succ` passes one of `srows` and
`sother`. -/
structure Merged (h : Hugr Ops.Op Meta) (pred succ : Nat) (pin pother row sother : List Types.Ty)
    (srows : List (List Types.Ty)) (m : NewNodes) (g : Hugr Ops.Op Meta) : Prop where
  tree : IsTree g
  root_entry : g.moduleRoot = h.moduleRoot ∧ g.entrypoint = h.entrypoint
  /-- The nodes. -/
  fresh : ∀ x ∈ m.all, h.live x = false
  nodup : m.all.Nodup
  live : ∀ n, g.live n = true ↔ (h.live n = true ∧ n ≠ pred ∧ n ≠ succ) ∨ n ∈ m.all
  host : ∀ n, h.live n = true → n ≠ pred → n ≠ succ → g.ops n = h.ops n ∧ g.ins n = h.ins n ∧ g.outs n = h.outs n ∧
    g.metadata n = h.metadata n
  ops : g.ops m.block = .dataflowBlock pin sother srows ∧ g.ops m.input = .input pin ∧
    g.ops m.output = .output (sumOf srows :: sother) ∧ g.ops m.first = .dfg ⟨pin, sumOf [row] :: pother⟩ ∧
    g.ops m.second = .dfg ⟨row ++ pother, sumOf srows :: sother⟩ ∧ g.ops m.unpack = unpackOp row
  /-- What was in the blocks is in the dataflow graphs, and other nodes stay where they are. -/
  contents : ∀ n, h.live n = true → n ≠ pred → n ≠ succ → g.hier.parent n =
    if h.hier.parent n = some pred then some m.first else if h.hier.parent n = some succ then some m.second
    else h.hier.parent n
  parents : g.hier.parent m.block = some h.entrypoint ∧
    ∀ x ∈ [m.input, m.output, m.first, m.second, m.unpack], g.hier.parent x = some m.block
  /-- The order of children: the new block is where the first one was, so it is the entry block if that was, and the
  contents of the blocks are in the order in which they were. -/
  order : g.children h.entrypoint = (h.children h.entrypoint).filterMap fun c =>
    if c = pred then some m.block else if c = succ then none else some c
  block_order : g.children m.block = [m.input, m.output, m.first, m.second, m.unpack]
  contents_order : g.children m.first = h.children pred ∧ g.children m.second = h.children succ
  host_order : ∀ n, h.live n = true → n ≠ pred → n ≠ succ → n ≠ h.entrypoint → g.children n = h.children n
  /-- The links: those that are not at the blocks, those inside the new block, those into the first and those out of the
  second block. -/
  links : ∀ l, l ∈ g.links ↔ (l ∈ h.links ∧ (l.src ≠ pred ∧ l.src ≠ succ) ∧ l.dst ≠ pred ∧ l.dst ≠ succ) ∨
    m.Inside pin row pother sother l ∨
    (∃ k ∈ h.links, k.dst = pred ∧ k.src ≠ succ ∧ l = ⟨k.src, k.srcPort, m.block, 0⟩) ∨
    (∃ k ∈ h.links, k.src = succ ∧ k.dst ≠ pred ∧ l = ⟨m.block, k.srcPort, k.dst, 0⟩) ∨
    ∃ k ∈ h.links, k.src = succ ∧ k.dst = pred ∧ l = ⟨m.block, k.srcPort, m.block, 0⟩

/-! ## Blocks and their links -/

theorem block_in (a b : List Types.Ty) (c : List (List Types.Ty)) {k : Nat} {kind : Kind}
    (hk : ((Op.dataflowBlock a b c).ports .incoming)[k]? = some kind) : k = 0 ∧ kind = .controlFlow := by
  change [Kind.controlFlow][k]? = some kind at hk
  cases k with
  | zero => simp only [List.getElem?_cons_zero, Option.some.injEq] at hk; exact ⟨rfl, hk.symm⟩
  | succ k => simp at hk

theorem exit_in (a : List Types.Ty) {k : Nat} {kind : Kind}
    (hk : ((Op.exitBlock a).ports .incoming)[k]? = some kind) : k = 0 ∧ kind = .controlFlow := by
  change [Kind.controlFlow][k]? = some kind at hk
  cases k with
  | zero => simp only [List.getElem?_cons_zero, Option.some.injEq] at hk; exact ⟨rfl, hk.symm⟩
  | succ k => simp at hk

theorem block_out (a b : List Types.Ty) (c : List (List Types.Ty)) {k : Nat} {kind : Kind}
    (hk : ((Op.dataflowBlock a b c).ports .outgoing)[k]? = some kind) : k < c.length ∧ kind = .controlFlow := by
  change (c.map fun _ => Kind.controlFlow)[k]? = some kind at hk
  rw [List.getElem?_map] at hk
  cases e : c[k]? with
  | none => rw [e] at hk; cases hk
  | some x =>
    rw [e] at hk
    exact ⟨(List.getElem?_eq_some_iff.1 e).1, by cases hk; rfl⟩

/-- A link at a block is between two blocks of the control-flow graph. -/
theorem flow_link (ht : IsTree h) (hv : Valid C h) {G : Nat} {sig : Types.Signature} (hop : h.ops G = .cfg sig) {l : Link}
    (hl : l ∈ h.links) (hb : ∃ n a b c, (n = l.src ∨ n = l.dst) ∧ h.hier.parent n = some G ∧ h.ops n = .dataflowBlock a b c) :
    h.hier.parent l.src = some G ∧ h.hier.parent l.dst = some G ∧ BlockLinkOk h l ∧ l.dstPort = 0 := by
  obtain ⟨n, a, b, c, hn, hp, ho⟩ := hb
  obtain ⟨kind, k1, k2, p, e1, e2⟩ := hv.kinds l hl
  have hk : kind = .controlFlow := by
    rcases hn with rfl | rfl
    · unfold srcKind at k1
      rw [ho] at k1
      exact (block_out _ _ _ k1).2
    · rw [ho] at k2
      exact (block_in _ _ _ k2).2
  subst hk
  have e3 : h.hier.parent l.dst = some p := by
    rcases e2 with e2 | ⟨q, a, _, _, ⟨hs, _⟩ | ⟨⟨t, ht, _⟩, _⟩⟩
    · exact e2
    · cases hs
    · cases ht
  have hG : p = G := by
    rcases hn with rfl | rfl
    · rw [hp] at e1; cases e1; rfl
    · rw [hp] at e3; cases e3; rfl
  subst hG
  have bl := hv.blocks l hl p sig hop ((ht.child_iff _ _).2 e1) ((ht.child_iff _ _).2 e3)
  refine ⟨e1, e3, bl, ?_⟩
  obtain ⟨_, _, _, row, _, _, ⟨o, r, hd⟩ | hd⟩ := bl
  · rw [hd] at k2; exact (block_in _ _ _ k2).1
  · rw [hd] at k2; exact (exit_in _ k2).1

/-- What is known of two blocks that are to be merged. -/
structure Mergeable (h : Hugr Ops.Op Meta) (G pred succ : Nat) (pin pother row sother : List Types.Ty)
    (srows : List (List Types.Ty)) : Prop where
  pup : h.hier.parent pred = some G
  sup : h.hier.parent succ = some G
  pop : h.ops pred = .dataflowBlock pin pother [row]
  sop : h.ops succ = .dataflowBlock (row ++ pother) sother srows
  from_pred : ∀ l ∈ h.links, l.src = pred → l.dst = succ
  into_succ : ∀ l ∈ h.links, l.dst = succ → l.src = pred

theorem mergeable_ok (ht : IsTree h) (hl : LinksOk h) (hv : Valid C h) {G : Nat} {sig : Types.Signature}
    (hop : h.ops G = .cfg sig) {n pred succ : Nat} (hn : n ∈ h.children G)
    {pin pother : List Types.Ty} {prows : List (List Types.Ty)} (hb : h.ops n = .dataflowBlock pin pother prows)
    (hm : mergeable h G n = some (pred, succ)) : n = pred ∧ ∃ row sother srows, prows = [row] ∧
      Mergeable h G pred succ pin pother row sother srows := by
  unfold mergeable at hm
  cases ho : outputNeighbours h n with
  | nil => rw [ho] at hm; cases hm
  | cons s0 tl =>
    cases tl with
    | cons a b => rw [ho] at hm; cases hm
    | nil =>
      rw [ho] at hm
      simp only at hm
      by_cases hi : (inputNeighbours h s0).length ≠ 1
      · rw [if_pos hi] at hm; cases hm
      rw [if_neg hi] at hm
      by_cases h2 : s0 ∈ (h.children G).take 2
      · rw [if_pos h2] at hm; cases hm
      rw [if_neg h2] at hm
      simp only [Option.some.injEq, Prod.mk.injEq] at hm
      obtain ⟨rfl, rfl⟩ := hm
      refine ⟨rfl, ?_⟩
      have hi : (inputNeighbours h s0).length = 1 := by omega
      unfold outputNeighbours at ho
      obtain ⟨l0, f0, d0⟩ : ∃ l0, (h.links.filter fun l => l.src = n) = [l0] ∧ l0.dst = s0 := by
        cases hf : h.links.filter fun l => l.src = n with
        | nil => rw [hf] at ho; cases ho
        | cons x xs =>
          rw [hf] at ho
          cases xs with
          | nil => exact ⟨x, rfl, by simpa using ho⟩
          | cons y ys => simp at ho
      have hfrom : ∀ l ∈ h.links, l.src = n → l = l0 := by
        intro l h1 h3
        have : l ∈ h.links.filter fun l => l.src = n := List.mem_filter.2 ⟨h1, by simpa using h3⟩
        rw [f0] at this
        exact List.mem_singleton.1 this
      have hl0 : l0 ∈ h.links ∧ l0.src = n := by
        have : l0 ∈ h.links.filter fun l => l.src = n := by rw [f0]; exact List.mem_singleton.2 rfl
        obtain ⟨h1, h3⟩ := List.mem_filter.1 this
        exact ⟨h1, by simpa using h3⟩
      have hinto : ∀ l ∈ h.links, l.dst = s0 → l.src = n := by
        unfold inputNeighbours at hi
        rw [List.length_map] at hi
        obtain ⟨x, hx⟩ := List.length_eq_one_iff.1 hi
        have key : ∀ l ∈ h.links, l.dst = s0 → l = x := by
          intro l h1 h3
          have : l ∈ h.links.filter fun l => l.dst = s0 := List.mem_filter.2 ⟨h1, by simpa using h3⟩
          rw [hx] at this
          exact List.mem_singleton.1 this
        intro l h1 h3
        rw [key l h1 h3, ← key l0 hl0.1 d0]
        exact hl0.2
      have hup : h.hier.parent n = some G := (ht.child_iff _ _).1 hn
      have nl := (ht.parent_live _ _ hup).1
      obtain ⟨b1, b2, b3, _⟩ := flow_link ht hv hop hl0.1 ⟨n, _, _, _, .inl hl0.2.symm, hup, hb⟩
      rw [d0] at b2
      obtain ⟨i', o', r', row, c1, c2, c3⟩ := b3
      rw [hl0.2, hb] at c1
      cases c1
      have hone : ∀ j < prows.length, j = l0.srcPort := by
        intro j hj
        have := hv.outDegree n j .controlFlow nl (by
          rw [hb]
          change (prows.map fun _ => Kind.controlFlow)[j]? = _
          rw [List.getElem?_map, List.getElem?_eq_getElem hj]
          rfl)
        change (linksFrom h n j).length = 1 at this
        obtain ⟨x, hx⟩ := List.length_eq_one_iff.1 this
        have hm : x ∈ linksFrom h n j := by rw [hx]; exact List.mem_singleton.2 rfl
        unfold linksFrom at hm
        obtain ⟨m1, m2⟩ := List.mem_filter.1 hm
        simp only [Bool.and_eq_true, decide_eq_true_eq] at m2
        rw [← m2.2, hfrom x m1 m2.1]
      have hlt := (List.getElem?_eq_some_iff.1 c2).1
      have hz : l0.srcPort = 0 := (hone 0 (by omega)).symm
      have hlen : prows.length = 1 := by
        by_contra hc
        have := hone 1 (by omega)
        omega
      have hrow : prows = [row] := by
        obtain ⟨x, hx⟩ := List.length_eq_one_iff.1 hlen
        rw [hx, hz] at c2
        simp only [List.getElem?_cons_zero, Option.some.injEq] at c2
        rw [hx, c2]
      rw [d0] at c3
      rcases c3 with ⟨o, r, c3⟩ | c3
      · exact ⟨row, o, r, hrow, hup, b2, by rw [hb, hrow], c3, fun l h1 h3 => by rw [hfrom l h1 h3, d0], hinto⟩
      · exfalso
        have hc := hv.children G (ht.parent_live _ _ hup).2
        unfold ChildrenOk at hc
        rw [hop] at hc
        obtain ⟨entry, exit, rest, _, _, e1, _, _, e4⟩ := hc
        have hs : s0 ∈ h.children G := (ht.child_iff _ _).2 b2
        rw [e1] at hs h2
        simp only [List.mem_cons, List.take_succ_cons, List.take_zero, List.not_mem_nil, or_false, not_or] at hs h2
        rcases hs with e | e | e
        · exact h2.1 e
        · exact h2.2 e
        · exact e4 s0 e _ c3


/-! ## The replacement -/

theorem leaving_eq {pred succ : Nat} : ∀ (ss : List Nat), (∀ s ∈ ss, ∃ t, h.linkedInputs succ s = [t]) →
    ∃ es, leaving h pred succ ss = some es ∧ ∀ e, e ∈ es ↔ ∃ s ∈ ss, ∃ t, h.linkedInputs succ s = [t] ∧ t.1 ≠ pred ∧
      e = ⟨5, t.1, .controlFlow s⟩
  | [], _ => ⟨[], rfl, by simp⟩
  | s :: ss, hs => by
    obtain ⟨t, ht⟩ := hs s (by simp)
    obtain ⟨es, e1, e2⟩ := leaving_eq (pred := pred) ss (fun x hx => hs x (by simp [hx]))
    refine ⟨if t.1 = pred then es else ⟨5, t.1, .controlFlow s⟩ :: es, by rw [leaving, ht]; simp only; rw [e1]; rfl, ?_⟩
    intro e
    by_cases hp : t.1 = pred
    · rw [if_pos hp, e2]
      constructor
      · rintro ⟨x, hx, r⟩
        exact ⟨x, by simp [hx], r⟩
      · rintro ⟨x, hx, t', r1, r2, r3⟩
        rcases List.mem_cons.1 hx with rfl | hx
        · rw [ht] at r1
          cases r1
          exact absurd hp r2
        · exact ⟨x, hx, t', r1, r2, r3⟩
    · rw [if_neg hp, List.mem_cons, e2]
      constructor
      · rintro (rfl | ⟨x, hx, r⟩)
        · exact ⟨s, by simp, t, ht, hp, rfl⟩
        · exact ⟨x, by simp [hx], r⟩
      · rintro ⟨x, hx, t', r1, r2, r3⟩
        rcases List.mem_cons.1 hx with rfl | hx
        · rw [ht] at r1
          cases r1
          exact .inl r3
        · exact .inr ⟨x, hx, t', r1, r2, r3⟩

/-- The replacement that `mk_rep` makes. -/
structure Made (h : Hugr Ops.Op Meta) (sig : Types.Signature) (pred succ : Nat) (pin pother row sother : List Types.Ty)
    (srows : List (List Types.Ty)) (r : Replacement Meta) (L : List Link) : Prop where
  removal : r.removal = [pred, succ]
  adoptions : r.adoptions = [(8, pred), (9, succ)]
  new : r.muNew = []
  repl : r.replacement = SetLinks (mergedNodes ⟨sig, pin, pother, [row], row ++ pother, sother, srows⟩ row) L
  sane : Sane r.replacement
  links : ∀ l, l ∈ L ↔ l ∈ (around sig : Hugr Ops.Op Meta).links ∨
    l ∈ innerLinks ⟨sig, pin, pother, [row], row ++ pother, sother, srows⟩ row ∨
    ∃ k ∈ h.links, k.src = succ ∧ k.dst = pred ∧ l = ⟨5, k.srcPort, 5, 0⟩
  inp : ∀ e, e ∈ r.muInp ↔ ∃ k ∈ h.links, k.dst = pred ∧ k.src ≠ succ ∧ e = ⟨k.src, 5, .controlFlow k.srcPort⟩
  out : ∀ e, e ∈ r.muOut ↔ ∃ k ∈ h.links, k.src = succ ∧ k.dst ≠ pred ∧ e = ⟨5, k.dst, .controlFlow k.srcPort⟩

theorem mkRep_made (ht : IsTree h) (hl : LinksOk h) (hv : Valid C h) {sig : Types.Signature}
    (hop : h.ops h.entrypoint = .cfg sig) {pred succ : Nat} {pin pother row sother : List Types.Ty}
    {srows : List (List Types.Ty)} (m : Mergeable h h.entrypoint pred succ pin pother row sother srows) :
    ∃ r L, mkRep h pred succ = some r ∧ Made h sig pred succ pin pother row sother srows r L := by
  have plive := (ht.parent_live _ _ m.pup).1
  have slive := (ht.parent_live _ _ m.sup).1
  have hinto : ∀ s, s ∈ allLinkedOutputs h pred ↔ ∃ k ∈ h.links, k.dst = pred ∧ s = (k.src, k.srcPort) := by
    intro s
    unfold allLinkedOutputs Hugr.linkedOutputs
    simp only [List.mem_flatMap, List.mem_range, List.mem_map, List.mem_filter, Bool.and_eq_true, decide_eq_true_eq]
    constructor
    · rintro ⟨i, _, k, ⟨k1, k2, _⟩, rfl⟩
      exact ⟨k, k1, k2, rfl⟩
    · rintro ⟨k, k1, rfl, rfl⟩
      exact ⟨k.dstPort, (hl k k1).2.2.2, k, ⟨k1, rfl, rfl⟩, rfl⟩
  have souts : h.outs succ = srows.length := by
    rw [(hv.ports succ slive).2, m.sop]
    change (srows.map fun _ => Kind.controlFlow).length = _
    rw [List.length_map]
  have hback : ∀ s ∈ ((allLinkedOutputs h pred).filter fun s => decide (s.1 = succ)).map Prod.snd, s < srows.length := by
    intro s hs
    obtain ⟨x, hx, rfl⟩ := List.mem_map.1 hs
    obtain ⟨x1, x2⟩ := List.mem_filter.1 hx
    obtain ⟨k, k1, k2, rfl⟩ := (hinto x).1 x1
    simp only [decide_eq_true_eq] at x2
    have := (hl k k1).2.1
    rw [x2, souts] at this
    exact this
  obtain ⟨L, e1, e2, e3⟩ := mergedHugr_eq (Meta := Meta)
    (T := ⟨sig, pin, pother, [row], row ++ pother, sother, srows⟩) (row := row) rfl rfl hback
  have hone : ∀ s < h.outs succ, ∃ k, linksFrom h succ s = [k] := by
    intro s hs
    rw [souts] at hs
    have := hv.outDegree succ s .controlFlow slive (by
      rw [m.sop]
      change (srows.map fun _ => Kind.controlFlow)[s]? = _
      rw [List.getElem?_map, List.getElem?_eq_getElem hs]
      rfl)
    exact List.length_eq_one_iff.1 this
  have hlinked : ∀ s, h.linkedInputs succ s = (linksFrom h succ s).map fun l => (l.dst, l.dstPort) := fun s => rfl
  have hmem : ∀ s k, k ∈ linksFrom h succ s ↔ k ∈ h.links ∧ k.src = succ ∧ k.srcPort = s := by
    intro s k
    unfold linksFrom
    simp [List.mem_filter]
  obtain ⟨es, f1, f2⟩ := leaving_eq (h := h) (pred := pred) (succ := succ) (List.range (h.outs succ)) (by
    intro s hs
    obtain ⟨k, hk⟩ := hone s (List.mem_range.1 hs)
    exact ⟨(k.dst, k.dstPort), by rw [hlinked, hk]; rfl⟩)
  let r : Replacement Meta :=
    { removal := [pred, succ]
      replacement := SetLinks (mergedNodes ⟨sig, pin, pother, [row], row ++ pother, sother, srows⟩ row) L
      adoptions := [(8, pred), (9, succ)]
      muInp := ((allLinkedOutputs h pred).filter fun s => s.1 ≠ succ).map fun s => ⟨s.1, 5, .controlFlow s.2⟩
      muOut := es
      muNew := [] }
  refine ⟨r, L, ?_, rfl, rfl, rfl, rfl, e2, ?_, ?_, ?_⟩
  · unfold mkRep
    rw [hop, m.pop, m.sop]
    simp only
    rw [e1, Option.bind_some, f1]
    rfl
  · intro l
    rw [e3]
    refine or_congr Iff.rfl (or_congr Iff.rfl ⟨?_, ?_⟩)
    · rintro ⟨s, hs, rfl⟩
      obtain ⟨x, hx, rfl⟩ := List.mem_map.1 hs
      obtain ⟨x1, x2⟩ := List.mem_filter.1 hx
      obtain ⟨k, k1, k2, rfl⟩ := (hinto x).1 x1
      exact ⟨k, k1, by simpa using x2, k2, rfl⟩
    · rintro ⟨k, k1, k2, k3, rfl⟩
      exact ⟨k.srcPort, List.mem_map.2 ⟨(k.src, k.srcPort), List.mem_filter.2 ⟨(hinto _).2 ⟨k, k1, k3, rfl⟩, by simpa using k2⟩,
        rfl⟩, rfl⟩
  · intro e
    constructor
    · intro he
      obtain ⟨x, hx, rfl⟩ := List.mem_map.1 he
      obtain ⟨x1, x2⟩ := List.mem_filter.1 hx
      obtain ⟨k, k1, k2, rfl⟩ := (hinto x).1 x1
      exact ⟨k, k1, k2, by simpa using x2, rfl⟩
    · rintro ⟨k, k1, k2, k3, rfl⟩
      exact List.mem_map.2 ⟨(k.src, k.srcPort), List.mem_filter.2 ⟨(hinto _).2 ⟨k, k1, k2, rfl⟩, by simpa using k3⟩, rfl⟩
  · intro e
    change e ∈ es ↔ _
    rw [f2]
    constructor
    · rintro ⟨s, hs, t, t1, t2, rfl⟩
      obtain ⟨k, hk⟩ := hone s (List.mem_range.1 hs)
      rw [hlinked, hk] at t1
      simp only [List.map_cons, List.map_nil, List.cons.injEq, and_true] at t1
      subst t1
      obtain ⟨k1, k2, rfl⟩ := (hmem s k).1 (by rw [hk]; exact List.mem_singleton.2 rfl)
      exact ⟨k, k1, k2, t2, rfl⟩
    · rintro ⟨k, k1, k2, k3, rfl⟩
      have hlt : k.srcPort < h.outs succ := by have := (hl k k1).2.1; rwa [k2] at this
      obtain ⟨k', hk⟩ := hone _ hlt
      have : k ∈ linksFrom h succ k.srcPort := (hmem _ _).2 ⟨k1, k2, rfl⟩
      rw [hk, List.mem_singleton] at this
      subst this
      exact ⟨k.srcPort, List.mem_range.2 hlt, (k.dst, k.dstPort), by rw [hlinked, hk]; rfl, k3, rfl⟩


section Apply
variable {sig : Types.Signature} {pred succ : Nat} {pin pother row sother : List Types.Ty}
  {srows : List (List Types.Ty)} {r : Replacement Meta} {L : List Link}

theorem Made.entry (d : Made h sig pred succ pin pother row sother srows r L) : r.replacement.entrypoint = 4 := by
  rw [d.repl]; rfl

theorem Made.live (d : Made h sig pred succ pin pother row sother srows r L) {x : Nat} (hx : x ∈ [5, 6, 7, 8, 9, 10]) :
    r.replacement.live x = true := by
  rw [d.repl]
  simp only [List.mem_cons, List.not_mem_nil, or_false] at hx
  rcases hx with rfl | rfl | rfl | rfl | rfl | rfl <;> rfl

theorem Made.top (d : Made h sig pred succ pin pother row sother srows r L) :
    r.replacement.hier.parent 5 = some r.replacement.entrypoint := by
  rw [d.repl]; rfl

theorem Made.up (d : Made h sig pred succ pin pother row sother srows r L) {x : Nat} (hx : x ∈ [6, 7, 8, 9, 10]) :
    r.replacement.hier.parent x = some 5 := by
  rw [d.repl]
  simp only [List.mem_cons, List.not_mem_nil, or_false] at hx
  rcases hx with rfl | rfl | rfl | rfl | rfl <;> rfl

theorem Made.brought (d : Made h sig pred succ pin pother row sother srows r L) (x : Nat) :
    Brought r x ↔ x ∈ [5, 6, 7, 8, 9, 10] := by
  unfold Brought
  constructor
  · rintro ⟨h1, h2⟩
    rw [d.entry] at h1 h2
    by_contra hc
    have hS : ∀ m q, m ∉ [4, 5, 6, 7, 8, 9, 10] → r.replacement.hier.parent m = some q → q ∉ [4, 5, 6, 7, 8, 9, 10] := by
      intro m q hm hq
      rw [d.repl] at hq
      simp only [List.mem_cons, List.not_mem_nil, or_false, not_or] at hm
      obtain ⟨m4, m5, m6, m7, m8, m9, m10⟩ := hm
      have hq' : (if m = 10 then some 5 else if m = 9 then some 5 else if m = 8 then some 5 else if m = 7 then some 5 else
          if m = 6 then some 5 else if m = 5 then some 4 else if m = 4 then some 1 else if m = 3 then some 1 else
          if m = 2 then some 1 else if m = 1 then some 0 else none) = some q := hq
      rw [if_neg m10, if_neg m9, if_neg m8, if_neg m7, if_neg m6, if_neg m5, if_neg m4] at hq'
      split at hq'
      · cases hq'; decide
      · split at hq'
        · cases hq'; decide
        · split at hq'
          · cases hq'; decide
          · cases hq'
    refine above_closed hS (a := x) ?_ h1 (by decide)
    simp only [List.mem_cons, List.not_mem_nil, or_false, not_or] at hc ⊢
    exact ⟨h2, hc⟩
  · intro hx
    refine ⟨?_, ?_⟩
    · by_cases e : x = 5
      · subst e; exact .of_parent d.top
      · exact .step (d.up (by simp only [List.mem_cons, e, false_or] at hx ⊢; exact hx)) (.of_parent d.top)
    · rw [d.entry]
      rintro rfl
      revert hx
      decide


theorem Made.removes (d : Made h sig pred succ pin pother row sother srows r L) (ht : IsTree h)
    (m : Mergeable h h.entrypoint pred succ pin pother row sother srows) (hne : pred ≠ succ) (x : Nat) :
    Removes h r x ↔ x = pred ∨ x = succ := by
  unfold Removes Replacement.adopted
  rw [d.removal, d.adoptions]
  simp only [List.mem_cons, List.not_mem_nil, or_false, List.map_cons, List.map_nil]
  constructor
  · rintro ⟨⟨s, rfl | rfl, hs⟩, h2⟩
    · by_contra hc
      exact h2 s (.inl rfl) (fun e => hc (.inl e)) hs
    · by_contra hc
      exact h2 s (.inr rfl) (fun e => hc (.inr e)) hs
  · rintro (rfl | rfl)
    · refine ⟨⟨x, .inl rfl, .refl _⟩, ?_⟩
      rintro v (rfl | rfl) hn ha
      · exact hn rfl
      · exact hne (same_child ht (.refl _) ha m.pup m.sup)
    · refine ⟨⟨x, .inr rfl, .refl _⟩, ?_⟩
      rintro v (rfl | rfl) hn ha
      · exact hne (same_child ht (.refl _) ha m.sup m.pup).symm
      · exact hn rfl

theorem Made.wellPosed (d : Made h sig pred succ pin pother row sother srows r L) (ht : IsTree h) (hv : Valid C h)
    (hop : h.ops h.entrypoint = .cfg sig)
    (m : Mergeable h h.entrypoint pred succ pin pother row sother srows) (hne : pred ≠ succ) : WellPosed h r := by
  have hrem := d.removes ht m hne
  have n5 : (5 : Nat) ≠ r.replacement.entrypoint := by rw [d.entry]; decide
  have o5 : r.replacement.ops 5 = .dataflowBlock pin sother srows := by rw [d.repl]; rfl
  refine ⟨⟨h.entrypoint, by rw [d.removal]; simp, ?_, ?_⟩, ?_, ?_, ?_, ?_, ?_, ?_, ?_⟩
  · rw [d.removal]
    intro n hn
    simp only [List.mem_cons, List.not_mem_nil, or_false] at hn
    rcases hn with rfl | rfl
    · exact m.pup
    · exact m.sup
  · rw [hop, d.entry, d.repl]
    rfl
  · rw [d.removal]; simp [hne]
  · rw [d.adoptions]
    intro a ha
    simp only [List.mem_cons, List.not_mem_nil, or_false] at ha
    rcases ha with rfl | rfl
    · exact ⟨d.live (by simp), by rw [d.repl]; exact rfl, by rw [d.repl]; rfl⟩
    · exact ⟨d.live (by simp), by rw [d.repl]; exact rfl, by rw [d.repl]; rfl⟩
  · unfold Replacement.adopted
    rw [d.adoptions]; simp [hne]
  · unfold Replacement.adopted
    rw [d.adoptions, d.removal]
    simp only [List.map_cons, List.map_nil, List.mem_cons, List.not_mem_nil, or_false]
    rintro v (rfl | rfl)
    · refine ⟨⟨v, .inl rfl, .refl _⟩, ?_⟩
      rintro u (rfl | rfl) hn ha
      · exact hn rfl
      · exact hne (same_child ht (.refl _) ha m.pup m.sup)
    · refine ⟨⟨v, .inr rfl, .refl _⟩, ?_⟩
      rintro u (rfl | rfl) hn ha
      · exact hne (same_child ht (.refl _) ha m.sup m.pup).symm
      · exact hn rfl
  · intro e he
    obtain ⟨k, k1, k2, k3, rfl⟩ := (d.inp e).1 he
    obtain ⟨b1, b2, ⟨a, b, c, _, b3, _⟩, b4⟩ := flow_link ht hv hop k1 ⟨pred, _, _, _, .inr k2.symm, m.pup, m.pop⟩
    have k4 : k.src ≠ pred := by
      intro e
      exact hne (k2.symm.trans (m.from_pred k k1 e))
    refine ⟨⟨(ht.parent_live _ _ b1).1, ?_, .inl ⟨a, b, c, b3⟩⟩, d.live (by simp), n5, ?_⟩
    · rw [hrem]
      rintro (e | e)
      · exact k4 e
      · exact k3 e
    · change ((r.replacement.ops 5).ports .incoming)[0]? = _
      rw [o5]
      rfl
  · intro e he
    obtain ⟨k, k1, k2, k3, rfl⟩ := (d.out e).1 he
    obtain ⟨b1, b2, b3, b4⟩ := flow_link ht hv hop k1 ⟨succ, _, _, _, .inl k2.symm, m.sup, m.sop⟩
    have k4 : k.dst ≠ succ := by
      intro e
      exact hne ((m.into_succ k k1 e).symm.trans k2)
    refine ⟨⟨d.live (by simp), n5, .inl ⟨_, _, _, o5⟩⟩, (ht.parent_live _ _ b2).1, ?_, ?_, trivial⟩
    · rw [hrem]
      rintro (e | e)
      · exact k3 e
      · exact k4 e
    · obtain ⟨_, _, _, _, _, _, ⟨_, _, hd⟩ | hd⟩ := b3
      · change ((h.ops k.dst).ports .incoming)[0]? = _
        rw [hd]; rfl
      · change ((h.ops k.dst).ports .incoming)[0]? = _
        rw [hd]; rfl
  · rw [d.new]
    simp

theorem Made.applied (d : Made h sig pred succ pin pother row sother srows r L) (ht : IsTree h) (hl : LinksOk h)
    (hv : Valid C h) (hop : h.ops h.entrypoint = .cfg sig)
    (m : Mergeable h h.entrypoint pred succ pin pother row sother srows) (hne : pred ≠ succ)
    {news : List Nat} (hall : Allocated h news) (hlen : news.length = 7) {order : List Nat → List Nat}
    (hord : ∀ l, (order l).Perm l) : ∃ g map f, r.apply h news order = .ok (g, map) ∧
      (∀ x ∈ [5, 6, 7, 8, 9, 10], map.lookup x = some (f x)) ∧ Applied h r h.entrypoint f g := by
  have hp : PortsFit h := fun n hn => ⟨hv.tags n hn, hv.ports n hn⟩
  have hver := (C77_accepted_partial ht hv.tags (fun n hn => (d.sane.ports n hn).1)).2 (d.wellPosed ht hv hop m hne)
  have hrem := d.removes ht m hne
  have kids : ∀ n a b c, h.hier.parent n = some h.entrypoint → h.ops n = .dataflowBlock a b c → h.children n ≠ [] := by
    intro n a b c hn ho
    have := hv.children n (ht.parent_live _ _ hn).1
    unfold ChildrenOk at this
    rw [ho] at this
    obtain ⟨i, o, rest, e, _⟩ := this
    rw [e]
    simp
  have souts : r.replacement.outs 5 = srows.length := by
    rw [(d.sane.ports 5 (d.live (by simp))).2.2, d.repl]
    change (srows.map fun _ => Kind.controlFlow).length = _
    rw [List.length_map]
  have houts : h.outs succ = srows.length := by
    rw [(hv.ports succ (ht.parent_live _ _ m.sup).1).2, m.sop]
    change (srows.map fun _ => Kind.controlFlow).length = _
    rw [List.length_map]
  obtain ⟨g, map, p, f, a1, a2, a3, a4⟩ := C78_applied_partial ht hl hp d.sane.tree d.sane.links d.sane.ports hall
    (by rw [hlen, d.entry, d.repl]; rfl) hver
    (by
      refine ⟨?_, ?_, ?_⟩
      · intro e he s hs
        obtain ⟨k, k1, k2, k3, rfl⟩ := (d.inp e).1 he
        cases hs
        exact (hl k k1).2.1
      · intro e he s hs
        obtain ⟨k, k1, k2, k3, rfl⟩ := (d.out e).1 he
        cases hs
        change k.srcPort < r.replacement.outs 5
        rw [souts, ← houts, ← k2]
        exact (hl k k1).2.1
      · rw [d.new]; simp)
    (by
      unfold TargetsDiffer
      rw [d.new, List.append_nil]
      refine List.Pairwise.imp_of_mem (R := fun _ _ => True) ?_ (List.pairwise_of_forall (fun _ _ => trivial))
      intro a b ha _ _ n port hi
      obtain ⟨k, _, _, _, rfl⟩ := (d.out a).1 ha
      obtain ⟨_, ⟨s, hs⟩ | ⟨s, hs⟩⟩ := hi
      · cases hs
      · cases hs)
    (by
      have hb := fun x hx => (d.brought x).2 hx
      refine ⟨?_, ?_, ?_⟩
      · intro e he
        obtain ⟨k, _, _, _, rfl⟩ := (d.inp e).1 he
        exact (hb 5 (by simp)).1
      · intro e he
        obtain ⟨k, _, _, _, rfl⟩ := (d.out e).1 he
        exact (hb 5 (by simp)).1
      · rw [d.adoptions]
        intro a ha
        simp only [List.mem_cons, List.not_mem_nil, or_false] at ha
        rcases ha with rfl | rfl
        · exact hb 8 (by simp)
        · exact hb 9 (by simp))
    (by
      unfold EntryStays
      rw [hrem]
      rintro (e | e)
      · exact ht.acyclic _ _ m.pup (e ▸ .refl _)
      · exact ht.acyclic _ _ m.sup (e ▸ .refl _))
    (by
      intro v hvm
      unfold Replacement.adopted at hvm
      rw [d.adoptions] at hvm
      simp only [List.map_cons, List.map_nil, List.mem_cons, List.not_mem_nil, or_false] at hvm
      rcases hvm with rfl | rfl
      · exact kids _ _ _ _ m.pup m.pop
      · exact kids _ _ _ _ m.sup m.sop)
    hord
  have : p = h.entrypoint := by
    have := a2 pred (by rw [d.removal]; simp)
    rw [m.pup] at this
    cases this
    rfl
  subst this
  exact ⟨g, map, f, a1, fun x hx => a3 x ((d.brought x).2 hx), a4⟩


/-- The new nodes. -/
def nodesAt (f : Nat → Nat) : NewNodes := ⟨f 5, f 6, f 7, f 8, f 9, f 10⟩

theorem inner_iff (f : Nat → Nat) (l : Link) :
    (∃ k ∈ innerLinks ⟨sig, pin, pother, [row], row ++ pother, sother, srows⟩ row, l = ⟨f k.src, k.srcPort, f k.dst, k.dstPort⟩) ↔
    (nodesAt f).Inside pin row pother sother l := by
  unfold innerLinks NewNodes.Inside nodesAt
  simp only [List.mem_append, List.mem_map, List.mem_range, List.mem_singleton]
  constructor
  · rintro ⟨k, ((((⟨i, hi, rfl⟩ | ⟨i, hi, rfl⟩) | rfl) | ⟨i, hi, rfl⟩) | ⟨i, hi, rfl⟩), rfl⟩
    · exact .inl ⟨i, hi, rfl⟩
    · exact .inr (.inr (.inr (.inr ⟨i, hi, rfl⟩)))
    · exact .inr (.inl rfl)
    · exact .inr (.inr (.inl ⟨i, hi, rfl⟩))
    · exact .inr (.inr (.inr (.inl ⟨i, hi, rfl⟩)))
  · rintro (⟨i, hi, rfl⟩ | rfl | ⟨i, hi, rfl⟩ | ⟨i, hi, rfl⟩ | ⟨i, hi, rfl⟩)
    · exact ⟨_, .inl (.inl (.inl (.inl ⟨i, hi, rfl⟩))), rfl⟩
    · exact ⟨_, .inl (.inl (.inr rfl)), rfl⟩
    · exact ⟨_, .inl (.inr ⟨i, hi, rfl⟩), rfl⟩
    · exact ⟨_, .inr ⟨i, hi, rfl⟩, rfl⟩
    · exact ⟨_, .inl (.inl (.inl (.inr ⟨i, hi, rfl⟩))), rfl⟩

theorem inner_nodes {k : Link} (hk : k ∈ innerLinks ⟨sig, pin, pother, [row], row ++ pother, sother, srows⟩ row) :
    k.src ∈ [5, 6, 7, 8, 9, 10] ∧ k.dst ∈ [5, 6, 7, 8, 9, 10] := by
  unfold innerLinks at hk
  simp only [List.mem_append, List.mem_map, List.mem_range, List.mem_singleton] at hk
  rcases hk with (((⟨i, hi, rfl⟩ | ⟨i, hi, rfl⟩) | rfl) | ⟨i, hi, rfl⟩) | ⟨i, hi, rfl⟩ <;> simp

theorem around_nodes {k : Link} (hk : k ∈ (around sig : Hugr Ops.Op Meta).links) :
    k.src ∉ [5, 6, 7, 8, 9, 10] := by
  change k ∈ (([] ++ (List.range sig.input.length).map fun i => (⟨2, i, 4, i⟩ : Link)) ++
      (List.range sig.output.length).map fun i => (⟨4, i, 3, i⟩ : Link)) at hk
  simp only [List.mem_append, List.mem_map, List.mem_range, List.not_mem_nil, false_or] at hk
  rcases hk with ⟨i, hi, rfl⟩ | ⟨i, hi, rfl⟩ <;> simp

theorem Made.merged (d : Made h sig pred succ pin pother row sother srows r L) (ht : IsTree h)
    (m : Mergeable h h.entrypoint pred succ pin pother row sother srows) (hne : pred ≠ succ)
    {g : Hugr Ops.Op Meta} {f : Nat → Nat} (a : Applied h r h.entrypoint f g) :
    Merged h pred succ pin pother row sother srows (nodesAt f) g := by
  have hrem := d.removes ht m hne
  have hb := d.brought
  have stay : ∀ {n}, n ≠ pred → n ≠ succ → ¬ Removes h r n := by
    intro n h1 h2
    rw [hrem]
    rintro (e | e)
    · exact h1 e
    · exact h2 e
  have hall : ∀ n, n ∈ (nodesAt f).all ↔ ∃ x ∈ [5, 6, 7, 8, 9, 10], f x = n := by
    intro n
    simp [NewNodes.all, nodesAt, eq_comm]
  have hops : ∀ x ∈ [5, 6, 7, 8, 9, 10], g.ops (f x) = r.replacement.ops x := fun x hx => (a.inner x ((hb x).2 hx)).1
  have hents : r.replacement.children r.replacement.entrypoint = [5] := by rw [d.repl]; rfl
  refine ⟨a.tree, a.root_entry, ?_, ?_, ?_, ?_, ?_, ?_, ?_, ?_, ?_, ?_, ?_, ?_⟩
  · intro n hn
    obtain ⟨x, hx, rfl⟩ := (hall n).1 hn
    exact a.fresh x ((hb x).2 hx)
  · have : (nodesAt f).all = [5, 6, 7, 8, 9, 10].map f := rfl
    rw [this]
    exact List.Nodup.map_on (fun x hx y hy e => a.injective x y ((hb x).2 hx) ((hb y).2 hy) e) (by decide)
  · intro n
    rw [a.live, hall, hrem]
    refine or_congr (and_congr Iff.rfl not_or) ⟨?_, ?_⟩
    · rintro ⟨x, hx, e⟩
      exact ⟨x, (hb x).1 hx, e⟩
    · rintro ⟨x, hx, e⟩
      exact ⟨x, (hb x).2 hx, e⟩
  · intro n hn h1 h2
    exact a.host n hn (stay h1 h2)
  · refine ⟨?_, ?_, ?_, ?_, ?_, ?_⟩
    · exact (hops 5 (by simp)).trans (by rw [d.repl]; rfl)
    · exact (hops 6 (by simp)).trans (by rw [d.repl]; rfl)
    · exact (hops 7 (by simp)).trans (by rw [d.repl]; rfl)
    · exact (hops 8 (by simp)).trans (by rw [d.repl]; rfl)
    · exact (hops 9 (by simp)).trans (by rw [d.repl]; rfl)
    · exact (hops 10 (by simp)).trans (by rw [d.repl]; rfl)
  · intro n hn h1 h2
    by_cases e1 : h.hier.parent n = some pred
    · rw [if_pos e1]
      exact a.adopted (8, pred) (by rw [d.adoptions]; simp) n e1
    · rw [if_neg e1]
      by_cases e2 : h.hier.parent n = some succ
      · rw [if_pos e2]
        exact a.adopted (9, succ) (by rw [d.adoptions]; simp) n e2
      · rw [if_neg e2]
        refine a.host_parent n hn (stay h1 h2) ?_
        unfold Replacement.adopted
        rw [d.adoptions]
        simp only [List.map_cons, List.map_nil, List.mem_cons, List.not_mem_nil, or_false]
        rintro v (rfl | rfl)
        · exact e1
        · exact e2
  · refine ⟨a.inner_top 5 d.top, ?_⟩
    have key : ∀ x ∈ [6, 7, 8, 9, 10], g.hier.parent (f x) = some (f 5) := fun x hx =>
      a.inner_parent x 5 ((hb 5).2 (by simp)) (d.up hx)
    intro x hx
    have : x ∈ [6, 7, 8, 9, 10].map f := hx
    obtain ⟨y, hy, rfl⟩ := List.mem_map.1 this
    exact key y hy
  · rw [a.order, hents, d.removal]
    simp only [List.length_cons, List.length_nil, List.drop_succ_cons, List.drop_nil, List.map_nil, List.append_nil]
    refine List.filterMap_congr fun c _ => ?_
    unfold Replacement.instead
    rw [hents, d.removal]
    by_cases e1 : c = pred
    · subst e1
      simp [nodesAt]
    · by_cases e2 : c = succ
      · subst e2
        simp [e1, hne, List.lookup]
      · simp [e1, e2]
  · have := a.inner_order 5 ((hb 5).2 (by simp)) (by rw [d.adoptions]; simp)
    refine Eq.trans this ?_
    rw [d.repl]
    rfl
  · have := a.adopted_order (by rw [d.adoptions]; simp)
    exact ⟨this (8, pred) (by rw [d.adoptions]; simp), this (9, succ) (by rw [d.adoptions]; simp)⟩
  · intro n hn h1 h2 h3
    exact a.host_order n hn (stay h1 h2) h3
  · have hstay : ∀ l, StaysLink h r l ↔ l ∈ h.links ∧ (l.src ≠ pred ∧ l.src ≠ succ) ∧ l.dst ≠ pred ∧ l.dst ≠ succ := by
      intro l
      unfold StaysLink
      rw [hrem, hrem, not_or, not_or]
      constructor
      · rintro ⟨x1, x2, x3, _⟩
        exact ⟨x1, x2, x3⟩
      · rintro ⟨x1, x2, x3⟩
        refine ⟨x1, x2, x3, ?_⟩
        rw [d.new, List.append_nil]
        intro e he hi
        obtain ⟨k, _, _, _, rfl⟩ := (d.out e).1 he
        obtain ⟨_, ⟨s, hs⟩ | ⟨s, hs⟩⟩ := hi
        · cases hs
        · cases hs
    have hcopied : ∀ l, CopiedLink r f l ↔ (nodesAt f).Inside pin row pother sother l ∨
        ∃ k ∈ h.links, k.src = succ ∧ k.dst = pred ∧ l = ⟨f 5, k.srcPort, f 5, 0⟩ := by
      intro l
      unfold CopiedLink
      have hL : r.replacement.links = L := by rw [d.repl]; rfl
      rw [hL, ← inner_iff (sig := sig) (srows := srows)]
      constructor
      · rintro ⟨k, k1, k2, k3, rfl⟩
        rcases (d.links k).1 k1 with e | e | ⟨k', x1, x2, x3, rfl⟩
        · exact absurd ((hb _).1 k2) (around_nodes e)
        · exact .inl ⟨k, e, rfl⟩
        · exact .inr ⟨k', x1, x2, x3, rfl⟩
      · rintro (⟨k, hk, rfl⟩ | ⟨k, x1, x2, x3, rfl⟩)
        · obtain ⟨n1, n2⟩ := inner_nodes hk
          exact ⟨k, (d.links k).2 (.inr (.inl hk)), (hb _).2 n1, (hb _).2 n2, rfl⟩
        · exact ⟨⟨5, k.srcPort, 5, 0⟩, (d.links _).2 (.inr (.inr ⟨k, x1, x2, x3, rfl⟩)), (hb 5).2 (by simp),
            (hb 5).2 (by simp), rfl⟩
    have hedges : ∀ e, e ∈ r.edges f ↔
        (∃ k ∈ h.links, k.dst = pred ∧ k.src ≠ succ ∧ e = ⟨k.src, f 5, .controlFlow k.srcPort⟩) ∨
        ∃ k ∈ h.links, k.src = succ ∧ k.dst ≠ pred ∧ e = ⟨f 5, k.dst, .controlFlow k.srcPort⟩ := by
      intro e
      unfold Replacement.edges
      rw [d.new, List.append_nil, List.mem_append, List.mem_map, List.mem_map]
      refine or_congr ⟨?_, ?_⟩ ⟨?_, ?_⟩
      · rintro ⟨x, hx, rfl⟩
        obtain ⟨k, k1, k2, k3, rfl⟩ := (d.inp x).1 hx
        exact ⟨k, k1, k2, k3, rfl⟩
      · rintro ⟨k, k1, k2, k3, rfl⟩
        exact ⟨_, (d.inp _).2 ⟨k, k1, k2, k3, rfl⟩, rfl⟩
      · rintro ⟨x, hx, rfl⟩
        obtain ⟨k, k1, k2, k3, rfl⟩ := (d.out x).1 hx
        exact ⟨k, k1, k2, k3, rfl⟩
      · rintro ⟨k, k1, k2, k3, rfl⟩
        exact ⟨_, (d.out _).2 ⟨k, k1, k2, k3, rfl⟩, rfl⟩
    have hmakes : ∀ a b s l, (⟨a, b, .controlFlow s⟩ : NewEdge).Makes g l ↔ l = ⟨a, s, b, 0⟩ := by
      intro a b s l
      cases l
      unfold NewEdge.Makes
      simp only [Link.mk.injEq]
      tauto
    intro l
    constructor
    · intro hlm
      rcases a.links l hlm with e | e | ⟨e, he, hmk⟩
      · exact .inl ((hstay l).1 e)
      · rcases (hcopied l).1 e with e | e
        · exact .inr (.inl e)
        · exact .inr (.inr (.inr (.inr e)))
      · rcases (hedges e).1 he with ⟨k, k1, k2, k3, rfl⟩ | ⟨k, k1, k2, k3, rfl⟩
        · exact .inr (.inr (.inl ⟨k, k1, k2, k3, (hmakes _ _ _ _).1 hmk⟩))
        · exact .inr (.inr (.inr (.inl ⟨k, k1, k2, k3, (hmakes _ _ _ _).1 hmk⟩)))
    · have made : ∀ x y s, (⟨x, y, .controlFlow s⟩ : NewEdge) ∈ r.edges f → (⟨x, s, y, 0⟩ : Link) ∈ g.links := by
        intro x y s he
        obtain ⟨l', hl', hm'⟩ := a.made _ he
        rwa [(hmakes _ _ _ _).1 hm'] at hl'
      rintro (e | e | ⟨k, k1, k2, k3, rfl⟩ | ⟨k, k1, k2, k3, rfl⟩ | e)
      · exact a.stays l ((hstay l).2 e)
      · exact a.copied l ((hcopied l).2 (.inl e))
      · exact made _ _ _ ((hedges _).2 (.inl ⟨k, k1, k2, k3, rfl⟩))
      · exact made _ _ _ ((hedges _).2 (.inr ⟨k, k1, k2, k3, rfl⟩))
      · exact a.copied l ((hcopied l).2 (.inr e))

end Apply

/-- **C79** Two blocks of which the first goes only to the second, and the second is gone to only by the first, are merged
into one: the replacement that `merge_basic_blocks` makes can be applied, whatever the other blocks are, and the new block
has the inputs of the first and the outputs of the second. Inside it what was in the first block comes before what was
in the second. Nodes and links elsewhere do not change. Partial: it is not shown that the result is valid and that it
returns the same; that the dataflow graphs are inlined afterwards is not part of this; the blocks must differ
(see `C77_merge_with_itself_panics`), and the first must be a block (see `C74_merge_constant_panics`). -/
theorem C79_merge_blocks_partial (ht : IsTree h) (hl : LinksOk h) (hv : Valid C h) {sig : Types.Signature}
    (hop : h.ops h.entrypoint = .cfg sig) {n pred succ : Nat} (hn : n ∈ h.children h.entrypoint)
    {pin pother : List Types.Ty} {prows : List (List Types.Ty)} (hb : h.ops n = .dataflowBlock pin pother prows)
    (hm : mergeable h h.entrypoint n = some (pred, succ)) (hne : pred ≠ succ) :
    n = pred ∧ ∃ r row sother srows, mkRep h pred succ = some r ∧ prows = [row] ∧
      h.ops succ = .dataflowBlock (row ++ pother) sother srows ∧
      ∀ (news : List Nat) (order : List Nat → List Nat), Allocated h news → news.length = 7 → (∀ l, (order l).Perm l) →
        ∃ g map m, r.apply h news order = .ok (g, map) ∧
          (map.lookup 5 = some m.block ∧ map.lookup 8 = some m.first ∧ map.lookup 9 = some m.second) ∧
          Merged h pred succ pin pother row sother srows m g := by
  obtain ⟨rfl, row, sother, srows, hr, m⟩ := mergeable_ok ht hl hv hop hn hb hm
  obtain ⟨r, L, e, d⟩ := mkRep_made ht hl hv hop m
  refine ⟨rfl, r, row, sother, srows, e, hr, m.sop, fun news order hall hlen hord => ?_⟩
  obtain ⟨g, map, f, a1, a2, a3⟩ := d.applied ht hl hv hop m hne hall hlen hord
  exact ⟨g, map, nodesAt f, a1, ⟨a2 5 (by simp), a2 8 (by simp), a2 9 (by simp)⟩, d.merged ht m hne a3⟩

/-- The conditions are met: blocks 5 and 7 are merged. -/
example : ∃ r g map m, mkRep (built twoBlocksHistory) 5 7 = some r ∧
    r.apply (built twoBlocksHistory) ((List.range 7).map (20 + ·)) id = .ok (g, map) ∧
    Merged (built twoBlocksHistory) 5 7 [bool] [bool] [] [bool] [[]] m g := by
  obtain ⟨_, r, row, so, sr, h1, h2, h3, h4⟩ := C79_merge_blocks_partial (C := unpackContext) (h := built twoBlocksHistory)
    (n := 5) (pred := 5) (succ := 7) (sig := ⟨[bool], [bool]⟩) (pin := [bool]) (pother := [bool]) (prows := [[]])
    twoBlocks_ok.1 (built_ok twoBlocksHistory (by decide +kernel) (by decide +kernel)).2 twoBlocks_ok.2 rfl
    (by decide +kernel) rfl (by decide +kernel) (by decide)
  obtain ⟨g, map, m, a1, _, a2⟩ := h4 ((List.range 7).map (20 + ·)) id
    (allocated_range twoBlocks_ok.1 (by decide +kernel) 7) (by decide) (fun l => .refl l)
  cases h2
  have h3 : Op.dataflowBlock [bool] [bool] [[]] = .dataflowBlock ([] ++ [bool]) so sr := h3
  cases h3
  exact ⟨r, g, map, m, h1, a1, a2⟩

end Verif.Patch
