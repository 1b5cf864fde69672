import Verif.Patch.MoveOutResults
import Verif.Patch.MoveOutFindings

/-!
# C76: the last block of a control-flow graph becomes a dataflow graph after it
-/
namespace Verif.Patch

open Verif.Graph Verif.Ops Verif.Passes Verif.Validate Verif.Dataflow

variable {Meta : Type} {C : Validate.Context} {h g : Hugr Ops.Op Meta}

/-! ## Specification -/

/-- The control-flow graph `G` starts with the block `E` and has the exit `X`. The only way to `X` is from the block
`P`, which takes the types `ins` and goes nowhere else. The other steps of the pass have nothing to do: no blocks are to
be merged, and `E` is not to be moved out. -/
structure EndsWith (h : Hugr Ops.Op Meta) (G E X P : Nat) (sig : Types.Signature) (ins : List Types.Ty) : Prop where
  op : h.ops G = .cfg sig
  children : ∃ more, h.children G = E :: X :: more
  block : ∃ other rows, h.ops P = .dataflowBlock ins other rows
  other : P ≠ E
  last : Chain h P X
  stays : (∃ l ∈ h.links, l.dst = E) ∨ (h.links.filter fun l => l.src = E).length ≠ 1
  merged : ∀ b ∈ h.children G, ∀ c, c ≠ E → c ≠ X → ¬ Chain h b c
  /-- The results that are used have a port at the new control-flow graph. -/
  kept : ∀ l ∈ h.links, l.src = G → l.srcPort ≤ ins.length

/-! ## Lemmas -/

theorem EndsWith.at' {G E X P : Nat} {sig : Types.Signature} {ins : List Types.Ty} (ht : IsTree h) (hv : Valid C h)
    (hm : h.ops h.moduleRoot = .module) (hG : h.entrypoint = G) (hs : EndsWith h G E X P sig ins) (hf : Closed h G P) :
    ∃ p i o more inner row other, LastAt C h p G E X P i o more inner sig ins row other := by
  obtain ⟨more, hch⟩ := hs.children
  have hGl : h.live G = true := hG ▸ ht.entry_live
  have hne : G ≠ h.moduleRoot := by
    intro e; have := hs.op; rw [e, hm] at this; cases this
  obtain ⟨p, hp⟩ := ht.has_parent G hGl hne
  have hc := hv.children G hGl
  unfold ChildrenOk at hc
  rw [hs.op] at hc
  obtain ⟨entry, exit, rest, other0, rows0, c1, c2, c3, _⟩ := hc
  rw [hch] at c1
  cases c1
  have hX : X ∈ h.children G := by rw [hch]; simp
  obtain ⟨other, rows, hop⟩ := hs.block
  obtain ⟨l, hl, hd⟩ : ∃ l, (h.links.filter fun l => l.src = P) = [l] ∧ l.dst = X := by
    have hs := hs.last.1
    cases hfil : h.links.filter fun l => l.src = P with
    | nil => rw [hfil] at hs; cases hs
    | cons l ls =>
      rw [hfil, List.map_cons] at hs
      cases ls with
      | cons _ _ => cases hs
      | nil => cases hs; exact ⟨l, rfl, rfl⟩
  have only : ∀ k ∈ h.links, k.src = P → k = l := by
    intro k hk e
    have : k ∈ h.links.filter fun l => l.src = P := List.mem_filter.2 ⟨hk, by simpa using e⟩
    rw [hl] at this; simpa using this
  obtain ⟨hlm, hls⟩ : l ∈ h.links ∧ l.src = P := by
    have : l ∈ h.links.filter fun l => l.src = P := by rw [hl]; simp
    obtain ⟨q1, q2⟩ := List.mem_filter.1 this
    exact ⟨q1, by simpa using q2⟩
  have hPl : h.live P = true := hls ▸ (linksOk_of ht hv l hlm).1
  -- the block is a child of the graph
  have hPG : h.hier.parent P = some G := by
    obtain ⟨kind, k1, _, q, hq, hor⟩ := hv.kinds l hlm
    have hk : kind = .controlFlow := by
      unfold srcKind at k1
      rw [hls, hop] at k1
      have := List.mem_of_getElem? k1
      have hx : ¬ rows = [] ∧ kind = .controlFlow := by simpa [Op.ports] using this
      exact hx.2
    subst hk
    rcases hor with h1 | ⟨_, _, _, _, ⟨h2, _⟩ | ⟨⟨t, h2, _⟩, _⟩⟩
    · have hXG : h.hier.parent X = some G := (ht.child_iff _ _).1 hX
      rw [hd, hXG] at h1; cases h1
      rw [hls] at hq; exact hq
    · cases h2
    · cases h2
  have hPm : P ∈ h.children G := (ht.child_iff _ _).2 hPG
  have hcP := hv.children P hPl
  unfold ChildrenOk at hcP
  rw [hop] at hcP
  obtain ⟨i, o, inner, i1, i2, i3, _⟩ : ∃ inp out rest, h.children P = inp :: out :: rest ∧
    h.ops inp = .input ins ∧ h.ops out = .output (sumOf rows :: other) ∧ ∀ c ∈ rest, ¬ IsIO (h.ops c) := hcP
  have port : ∀ q, q < rows.length → l.srcPort = q := by
    intro q hq
    have hk : ((h.ops P).ports .outgoing)[q]? = some .controlFlow := by
      rw [hop]; simp [Op.ports, hq]
    have := hv.outDegree P q _ hPl hk
    have hpos : 0 < (linksFrom h P q).length := by
      have : (linksFrom h P q).length = 1 := this
      omega
    obtain ⟨k, hk⟩ := List.exists_mem_of_length_pos hpos
    obtain ⟨q1, q2⟩ := List.mem_filter.1 hk
    simp only [Bool.and_eq_true, decide_eq_true_eq] at q2
    rw [← only k q1 q2.1]; exact q2.2
  obtain ⟨ins', other', rows', row, b1, b2, b3⟩ := hv.blocks l hlm G sig hs.op (by rw [hls]; exact hPm) (by rw [hd]; exact hX)
  rw [hls, hop] at b1; cases b1
  have hlt := (List.getElem?_eq_some_iff.1 b2).1
  have hlen : rows.length = 1 := by
    by_contra hc
    have h0 := port 0 (by omega)
    have h1 := port 1 (by omega)
    omega
  have h0 : l.srcPort = 0 := port 0 (by omega)
  obtain ⟨r, hr⟩ := List.length_eq_one_iff.1 hlen
  rw [hr, h0] at b2
  have hrr : r = row := Option.some.inj b2
  subst hrr
  rw [hr] at hop i3
  rw [hd, c3] at b3
  have houts : sig.output = r ++ other := by
    rcases b3 with ⟨_, _, e⟩ | e
    · cases e
    · exact (Op.exitBlock.inj e)
  have hXl : h.live X = true := (ht.parent_live _ _ ((ht.child_iff _ _).1 hX)).1
  have hl0 : l = ⟨P, 0, X, 0⟩ := by
    have := (linksOk_of ht hv l hlm).2.2.2
    rw [hd, (hv.ports X hXl).1, c3] at this
    simp [Op.ports] at this
    obtain ⟨a, b, c, e⟩ := l
    simp only at hls h0 hd this
    rw [hls, h0, hd, this]
  have hmem : P ∈ more := by
    rw [hch] at hPm
    rcases List.mem_cons.1 hPm with e | e
    · exact absurd e hs.other
    · rcases List.mem_cons.1 e with e | e
      · rw [e, c3] at hop; cases hop
      · exact e
  refine ⟨p, i, o, more, inner, r, other, ht, hv, hG, hs.op, hp, hch, hmem, c3, hop, i1, i2, i3, houts, hl0 ▸ hlm,
    fun k hk e => by rw [only k hk e, hl0], ?_, hs.kept, hf⟩
  intro k hk e
  have : k.src ∈ (h.links.filter fun l => l.dst = X).map Link.src := List.mem_map.2 ⟨k, List.mem_filter.2 ⟨hk, by simpa using e⟩, rfl⟩
  rw [hs.last.2, List.mem_singleton] at this
  rw [only k hk this, hl0]

theorem ancestorBlock_some {G : Nat} (ht : IsTree h) : ∀ {fuel n b : Nat}, ancestorBlock h G fuel n = some b →
    h.hier.parent b = some G ∧ Above h.hier.parent n b
  | 0, _, _, hb => by cases hb
  | fuel + 1, n, b, hb => by
    unfold ancestorBlock at hb
    rw [getParent_eq ht] at hb
    cases hp : h.hier.parent n with
    | none => rw [hp] at hb; cases hb
    | some q =>
      rw [hp] at hb
      simp only at hb
      by_cases e : q = G
      · rw [if_pos e] at hb; cases hb
        exact ⟨hp.trans (by rw [e]), .refl _⟩
      · rw [if_neg e] at hb
        obtain ⟨h1, h2⟩ := ancestorBlock_some ht hb
        exact ⟨h1, .step hp h2⟩

/-- What the code does with such a graph. -/
theorem LastAt.runs {p G E X P i o d w d1 w1 : Nat} {more inner : List Nat} {sig : Types.Signature} {ins row other : List Types.Ty}
    (z : LastAt C h p G E X P i o more inner sig ins row other) (hs : EndsWith h G E X P sig ins) (hd : h.live d = false)
    (hw : h.live w = false) (hdw : d ≠ w) :
    ∃ g, normalizeMoves h d1 w1 d w = some g ∧ IsTree g ∧ ExitMoved h p G E X P o d w more sig ins row g := by
  obtain ⟨g, h1, h2, h3⟩ := z.exitOut_eq hd hw hdw
  refine ⟨g, ?_, h2, h3⟩
  have hfind : (h.children G).reverse.findSome? (mergeable h G) = none := by
    rw [findSome_none]
    intro x hx
    exact (mergeable_none z.children x).2 (hs.merged x (List.mem_reverse.1 hx))
  have hstay : ¬ ((∃ c, outputNeighbours h E = [c]) ∧ inputNeighbours h E = []) := by
    rintro ⟨⟨c, q1⟩, q2⟩
    rcases hs.stays with ⟨l, hl, e⟩ | e
    · have : l.src ∈ inputNeighbours h E := List.mem_map.2 ⟨l, List.mem_filter.2 ⟨hl, by simpa using e⟩, rfl⟩
      rw [q2] at this; cases this
    · have := congrArg List.length q1
      unfold outputNeighbours at this
      rw [List.length_map] at this
      exact e this
  have hgp : h.getParent G = some p := by rw [getParent_eq z.tree]; exact z.parent
  have hopE : ∃ a b c, h.ops E = .dataflowBlock a b c := by
    have hc := z.valid.children G z.liveG
    unfold ChildrenOk at hc
    rw [z.op] at hc
    obtain ⟨entry, exit, rest, o', r, c1, c2, _⟩ := hc
    rw [z.children] at c1; cases c1
    exact ⟨_, _, _, c2⟩
  obtain ⟨a, b, c, hopE⟩ := hopE
  have hgo : normalizeCfg h d1 = .goesOn := by
    unfold normalizeCfg
    rw [z.entry, z.op]
    simp only [hfind]
    rw [z.children, hgp]
    simp only [hopE]
    rw [if_neg (fun e => hstay ⟨⟨_, e.1⟩, e.2⟩)]
  have hpred : exitPred h G X = some P := by
    unfold exitPred
    have e1 : inputNeighbours h X = [P] := hs.last.2
    have e2 : outputNeighbours h P = [X] := hs.last.1
    rw [e1]
    simp only [e2]
    rw [if_pos]
    refine ⟨rfl, ?_⟩
    rw [List.all_eq_true]
    intro s hsm
    obtain ⟨c, hc, hsc⟩ := List.mem_flatMap.1 hsm
    obtain ⟨l, hl, rfl⟩ := List.mem_map.1 hsc
    obtain ⟨hl, hlc⟩ := List.mem_filter.1 hl
    have hlc : l.dst = c := by simpa using hlc
    have hcP : h.hier.parent l.dst = some P := by rw [hlc]; exact (z.tree.child_iff _ _).1 hc
    cases hb : ancestorBlock h G h.cap l.src with
    | none => rfl
    | some b =>
      obtain ⟨q1, q2⟩ := ancestorBlock_some z.tree hb
      simp only [beq_iff_eq]
      by_cases hsP : Above h.hier.parent l.src P
      · exact same_child z.tree q2 hsP q1 z.upP
      · have := (z.closed l hl (.of_parent hcP) (z.not_in hcP (.refl _)).2.1 hsP).1
        exact absurd (q2.trans (.of_parent q1)) this
  unfold normalizeMoves
  rw [hgo]
  simp only
  unfold moveBlocks
  rw [z.entry, z.children]
  simp only
  have hentry : moveEntry h G E X d1 w1 = some h := by
    unfold moveEntry
    split
    · rename_i c q1 q2
      exact absurd ⟨⟨c, q1⟩, q2⟩ hstay
    · rfl
  rw [hentry]
  simp only
  unfold moveExit
  rw [hpred]
  exact h1

/-! ## Theorems -/

/-- **C76** (partial) `normalize_cfg` on a control-flow graph that ends with a block makes that block the exit, and puts
what was in it into a dataflow graph after the control-flow graph, where the tuple that the block output first is
unpacked. The control-flow graph gives the dataflow graph what the block took, and what used the results of the
control-flow graph uses those of the dataflow graph. Nothing else changes.

Missing from the full statement: graphs where a block can be merged with the next one, and graphs whose entry block is
moved out; where more results are used than the block has inputs, and where the block uses values of other blocks or from
outside, the code goes wrong (`C76_results_removed`, `C76_order_wrong`, `C76_inner_wrong`). -/
theorem C76_exit_moved_partial (ht : IsTree h) (hv : Valid C h) (hm : h.ops h.moduleRoot = .module) {E X P d1 w1 d w : Nat}
    {sig : Types.Signature} {ins : List Types.Ty} (hs : EndsWith h h.entrypoint E X P sig ins) (hf : Closed h h.entrypoint P)
    (hd : h.live d = false) (hw : h.live w = false) (hdw : d ≠ w) :
    ∃ g p i o more row other, normalizeMoves h d1 w1 d w = some g ∧ h.hier.parent h.entrypoint = some p ∧
      h.children h.entrypoint = E :: X :: more ∧ HasIO h P i o ∧ h.ops P = .dataflowBlock ins other [row] ∧
      sig.output = row ++ other ∧ IsTree g ∧ ExitMoved h p h.entrypoint E X P o d w more sig ins row g := by
  obtain ⟨p, i, o, more, inner, row, other, z⟩ := hs.at' ht hv hm rfl hf
  obtain ⟨g, h1, h2, h3⟩ := z.runs (d1 := d1) (w1 := w1) hs hd hw hdw
  exact ⟨g, p, i, o, more, row, other, h1, z.parent, z.children, ⟨_, z.inside⟩, z.opP, z.outs, h2, h3⟩

/-- **C76** What `normalize_cfg` gives is a valid Hugr, if `UnpackTuple` is the operation of the prelude. -/
theorem C76_exit_moved_valid_partial (ht : IsTree h) (hv : Valid C h) (hm : h.ops h.moduleRoot = .module) {E X P d1 w1 d w : Nat}
    {sig : Types.Signature} {ins : List Types.Ty} (hs : EndsWith h h.entrypoint E X P sig ins) (hf : Closed h h.entrypoint P)
    (hd : h.live d = false) (hw : h.live w = false) (hdw : d ≠ w)
    (hC : C.defs "prelude" "UnpackTuple" = .poly [.listType (.runtimeType .linear)])
    (hg : normalizeMoves h d1 w1 d w = some g) : IsTree g ∧ Valid C g := by
  obtain ⟨p, i, o, more, inner, row, other, z⟩ := hs.at' ht hv hm rfl hf
  obtain ⟨g', h1, h2, h3⟩ := z.runs (d1 := d1) (w1 := w1) hs hd hw hdw
  rw [hg] at h1; cases h1
  exact ⟨h2, MovesLast.valid_g (d := d) (w := w) ⟨z, h3, h2, hd, hw, hdw, hC⟩⟩

/-- **C76** Moving the last block out does not change what the functions return, whatever extension operations, constants and
functions without a body do. The new nodes `d` and `w` have places that held no function definition. -/
theorem C76_exit_moved_returns_partial {W K : Type} {S : Sem W K} (ht : IsTree h) (hv : Valid C h)
    (hm : h.ops h.moduleRoot = .module) {E X P d1 w1 d w : Nat} {sig : Types.Signature} {ins : List Types.Ty}
    (hs : EndsWith h h.entrypoint E X P sig ins) (hf : Closed h h.entrypoint P)
    (hd : h.live d = false) (hw : h.live w = false) (hdw : d ≠ w) (hbd : ¬ IsDefn h d) (hbw : ¬ IsDefn h w)
    (hC : C.defs "prelude" "UnpackTuple" = .poly [.listType (.runtimeType .linear)])
    (hg : normalizeMoves h d1 w1 d w = some g) (f : Nat) (args outs : List (Val W)) :
    Returns g S f args outs ↔ Returns h S f args outs := by
  obtain ⟨p, i, o, more, inner, row, other, z⟩ := hs.at' ht hv hm rfl hf
  obtain ⟨g', h1, h2, h3⟩ := z.runs (d1 := d1) (w1 := w1) hs hd hw hdw
  rw [hg] at h1; cases h1
  exact (MovesLast.returns (d := d) (w := w) ⟨z, h3, h2, hd, hw, hdw, hC⟩ hbd hbw).symm

/-! ## A case -/

/-- The block 5 goes back to itself or to the block 7, which takes a truth value, uses a constant from outside, and goes to
the exit. -/
def endHistory : List (Cmd Ops.Op String) := mainHistory [bool, bool] [] [[bool], [bool, bool]]
  [ .addNodeWithParent 7 4 (.dataflowBlock [bool, bool] [bool] [[bool]]),
    .addNodeWithParent 8 5 (.input [bool]), .addNodeWithParent 9 5 (.output [sumOf [[bool], [bool, bool]]]),
    .addNodeWithParent 10 5 (.tag 1 [[bool], [bool, bool]]),
    .addNodeWithParent 11 7 (.input [bool, bool]), .addNodeWithParent 12 7 (.output [sumOf [[bool]], bool]),
    .addNodeWithParent 13 7 (.tag 0 [[bool]]),
    .addNodeWithParent 14 1 (.const bool), .addNodeWithParent 15 7 (.loadConstant bool),
    .connect ⟨5, 0, 5, 0⟩, .connect ⟨5, 1, 7, 0⟩, .connect ⟨7, 0, 6, 0⟩, .connect ⟨8, 0, 10, 0⟩,
    .connect ⟨8, 0, 10, 1⟩, .connect ⟨10, 0, 9, 0⟩, .connect ⟨14, 0, 15, 0⟩, .connect ⟨15, 0, 13, 0⟩, .connect ⟨13, 0, 12, 0⟩, .connect ⟨11, 1, 12, 1⟩ ]

theorem end_ok : IsTree (built endHistory) ∧ Valid unpackContext (built endHistory) :=
  flows_ok (by decide +kernel) (by decide +kernel) (by decide +kernel)

theorem end_with : EndsWith (built endHistory) 4 5 6 7 ⟨[bool], [bool, bool]⟩ [bool, bool] := by
  refine ⟨rfl, ⟨[7], by decide +kernel⟩, ⟨[bool], [[bool]], rfl⟩, by decide, ⟨by decide +kernel, by decide +kernel⟩,
    .inl ⟨⟨5, 0, 5, 0⟩, by decide +kernel, rfl⟩, ?_, by decide +kernel⟩
  have hc : (built endHistory).children 4 = [5, 6, 7] := by decide +kernel
  rw [hc]
  intro b hb c h1 h2 hx
  have hx := hx.1
  fin_cases hb
  · have : ((built endHistory).links.filter fun l => l.src = 5).map Link.dst = [5, 7] := by decide +kernel
    change ((built endHistory).links.filter fun l => l.src = 5).map Link.dst = _ at hx
    rw [this] at hx; cases hx
  · have : ((built endHistory).links.filter fun l => l.src = 6).map Link.dst = [] := by decide +kernel
    change ((built endHistory).links.filter fun l => l.src = 6).map Link.dst = _ at hx
    rw [this] at hx; cases hx
  · have : ((built endHistory).links.filter fun l => l.src = 7).map Link.dst = [6] := by decide +kernel
    change ((built endHistory).links.filter fun l => l.src = 7).map Link.dst = _ at hx
    rw [this] at hx; cases hx; exact h2 rfl

theorem end_closed : Closed (built endHistory) 4 7 := by
  have hlinks : (built endHistory).links = [⟨2, 0, 4, 0⟩, ⟨4, 0, 3, 0⟩, ⟨4, 1, 3, 1⟩, ⟨5, 0, 5, 0⟩, ⟨5, 1, 7, 0⟩, ⟨7, 0, 6, 0⟩, ⟨8, 0, 10, 0⟩,
      ⟨8, 0, 10, 1⟩, ⟨10, 0, 9, 0⟩, ⟨14, 0, 15, 0⟩, ⟨15, 0, 13, 0⟩, ⟨13, 0, 12, 0⟩, ⟨11, 1, 12, 1⟩] := by decide +kernel
  have not7 : ∀ {x : Nat} (xs : List Nat), (x :: xs).map (built endHistory).hier.parent = xs.map some ++ [none] → 7 ∉ x :: xs →
      ¬ Above (built endHistory).hier.parent x 7 := fun xs h1 h2 ha => h2 (above_chain xs h1 ha)
  have is7 : ∀ {x : Nat}, (built endHistory).hier.parent x = some 7 → Above (built endHistory).hier.parent x 7 := fun h => .of_parent h
  intro l hl
  rw [hlinks] at hl
  simp only [List.mem_cons, List.not_mem_nil, or_false] at hl
  rcases hl with rfl | rfl | rfl | rfl | rfl | rfl | rfl | rfl | rfl | rfl | rfl | rfl | rfl <;> intro q1 q2 q3
  · exact absurd q1 (not7 [1, 0] (by decide +kernel) (by decide))
  · exact absurd q1 (not7 [1, 0] (by decide +kernel) (by decide))
  · exact absurd q1 (not7 [1, 0] (by decide +kernel) (by decide))
  · exact absurd q1 (not7 [4, 1, 0] (by decide +kernel) (by decide))
  · exact absurd rfl q2
  · exact absurd q1 (not7 [4, 1, 0] (by decide +kernel) (by decide))
  · exact absurd q1 (not7 [5, 4, 1, 0] (by decide +kernel) (by decide))
  · exact absurd q1 (not7 [5, 4, 1, 0] (by decide +kernel) (by decide))
  · exact absurd q1 (not7 [5, 4, 1, 0] (by decide +kernel) (by decide))
  · refine ⟨fun ha => ?_, .const bool, rfl, rfl⟩
    have := above_chain (par := (built endHistory).hier.parent) (x := 14) [1, 0] (by decide +kernel) ha
    simp at this
  · exact absurd (is7 (by decide +kernel)) q3
  · exact absurd (is7 (by decide +kernel)) q3
  · exact absurd (is7 (by decide +kernel)) q3

/-- The last block moves out of a control-flow graph with a loop. -/
example : ∃ g p i o more row other, normalizeMoves (built endHistory) 20 21 22 23 = some g ∧
    (built endHistory).hier.parent 4 = some p ∧ (built endHistory).children 4 = 5 :: 6 :: more ∧
    HasIO (built endHistory) 7 i o ∧ (built endHistory).ops 7 = .dataflowBlock [bool, bool] other [row] ∧
    [bool, bool] = row ++ other ∧ IsTree g ∧
    ExitMoved (built endHistory) p 4 5 6 7 o 22 23 more ⟨[bool], [bool, bool]⟩ [bool, bool] row g :=
  C76_exit_moved_partial end_ok.1 end_ok.2 rfl end_with end_closed (by decide +kernel) (by decide +kernel) (by decide)

example : ∃ g, normalizeMoves (built endHistory) 20 21 22 23 = some g ∧ Valid unpackContext g := by
  obtain ⟨g, _, _, _, _, _, _, h1, _⟩ := C76_exit_moved_partial (d1 := 20) (w1 := 21) (d := 22) (w := 23) end_ok.1 end_ok.2 rfl
    end_with end_closed (by decide +kernel) (by decide +kernel) (by decide)
  exact ⟨g, h1, (C76_exit_moved_valid_partial end_ok.1 end_ok.2 rfl end_with end_closed (by decide +kernel) (by decide +kernel)
    (by decide) rfl h1).2⟩

section Run

variable {W K : Type} (S : Sem W K) (v : Val W)

/-- The wires of `main`. -/
def endMain : Wires W := fun n =>
  if n = 2 then outWires [v] else if n = 4 then outWires [S.value (S.const 14), v] else if n ∈ [3, 14] then outWires [] else noWires n

/-- ... of the block 5. -/
def endFirst : Wires W := fun n =>
  if n = 8 then outWires [v] else if n = 10 then outWires [.sum 1 [v, v]] else if n = 9 then outWires [] else endMain S v n

/-- ... of the block 7. -/
def endLast : Wires W := fun n =>
  if n = 11 then outWires [v, v] else if n = 13 then outWires [.sum 0 [S.value (S.const 14)]] else
  if n = 15 then outWires [S.value (S.const 14)] else if n = 12 then outWires [] else endFirst S v n

/-- `main` gives the constant, and what it is given. -/
theorem end_returns : Returns (built endHistory) S 1 [v] [S.value (S.const 14), v] := by
  have c1 : (built endHistory).children 1 = [2, 3, 4, 14] := by decide +kernel
  have c5 : (built endHistory).children 5 = [8, 9, 10] := by decide +kernel
  have c7 : (built endHistory).children 7 = [11, 12, 13, 15] := by decide +kernel
  have first : Runs (built endHistory) S (.graph (endMain S v) 5 [v] [.sum 1 [v, v]] (endFirst S v)) := by
    refine .graph (i := 8) (o := 9) (ins := fun _ => [v, v]) (outs := fun _ => [.sum 1 [v, v]]) ⟨_, c5⟩ ?_ rfl rfl rfl ?_ ?_ ?_ ?_ ?_
    · intro n hn
      rw [c5] at hn
      simp only [List.mem_cons, List.not_mem_nil, or_false, not_or] at hn
      simp [endFirst, hn.1, hn.2.1, hn.2.2]
    all_goals try
      intro n hn
      obtain ⟨q1, q2, q3⟩ := hn
      rw [c5] at q1
      obtain rfl : n = 10 := by simp only [List.mem_cons, List.not_mem_nil, or_false] at q1; omega
    · refine ⟨rfl, fun k x hk => ?_⟩
      rcases k with _ | _ | k
      · exact ⟨⟨8, 0, 10, 0⟩, by decide +kernel, rfl, rfl, hk⟩
      · exact ⟨⟨8, 0, 10, 1⟩, by decide +kernel, rfl, rfl, hk⟩
      · cases hk
    · rfl
    · rfl
    · exact .leaf (.tag (t := 1) (variants := [[bool], [bool, bool]]) rfl)
    · refine ⟨rfl, fun k x hk => ?_⟩
      rcases k with _ | k
      · exact ⟨⟨10, 0, 9, 0⟩, by decide +kernel, rfl, rfl, hk⟩
      · cases hk
  have last : Runs (built endHistory) S
      (.graph (endFirst S v) 7 [v, v] [.sum 0 [S.value (S.const 14)], v] (endLast S v)) := by
    refine .graph (i := 11) (o := 12) (ins := fun n => if n = 13 then [S.value (S.const 14)] else [])
      (outs := fun n => if n = 13 then [.sum 0 [S.value (S.const 14)]] else [S.value (S.const 14)]) ⟨_, c7⟩ ?_ rfl rfl rfl ?_ ?_ ?_ ?_ ?_
    · intro n hn
      rw [c7] at hn
      simp only [List.mem_cons, List.not_mem_nil, or_false, not_or] at hn
      simp [endLast, hn.1, hn.2.1, hn.2.2.1, hn.2.2.2]
    all_goals try
      intro n hn
      obtain ⟨q1, q2, q3⟩ := hn
      rw [c7] at q1
      obtain rfl | rfl : n = 13 ∨ n = 15 := by simp only [List.mem_cons, List.not_mem_nil, or_false] at q1; omega
    · refine ⟨rfl, fun k x hk => ?_⟩
      rcases k with _ | k
      · exact ⟨⟨15, 0, 13, 0⟩, by decide +kernel, rfl, rfl, hk⟩
      · cases hk
    · exact ⟨rfl, fun k x hk => by cases hk⟩
    · rfl
    · rfl
    · rfl
    · rfl
    · exact .leaf (.tag (t := 0) (variants := [[bool]]) rfl)
    · exact .leaf (.loadConstant (l := ⟨14, 0, 15, 0⟩) (t := bool) (t' := bool) rfl (by decide +kernel) rfl rfl rfl)
    · refine ⟨rfl, fun k x hk => ?_⟩
      rcases k with _ | _ | k
      · exact ⟨⟨13, 0, 12, 0⟩, by decide +kernel, rfl, rfl, hk⟩
      · exact ⟨⟨11, 1, 12, 1⟩, by decide +kernel, rfl, rfl, hk⟩
      · cases hk
  have blocks : Runs (built endHistory) S (.blocks (endMain S v) 5 [v] [S.value (S.const 14), v]) :=
    .jump (l := ⟨5, 1, 7, 0⟩) (tag := 1) (elems := [v, v]) (others := []) (x := [bool]) (other := []) (rows := [[bool], [bool, bool]])
      (y := [bool, bool]) (z := [bool]) (w := [[bool]]) rfl rfl rfl (by decide +kernel) rfl rfl rfl first
      (.exit (l := ⟨7, 0, 6, 0⟩) (tag := 0) (elems := [S.value (S.const 14)]) (others := [v]) (x := [bool, bool]) (other := [bool])
        (rows := [[bool]]) (ots := [bool, bool]) rfl rfl rfl (by decide +kernel) rfl rfl rfl last)
  refine ⟨⟨_, _, rfl⟩, endMain S v, .graph (i := 2) (o := 3) (ins := fun n => if n = 4 then [v] else [])
    (outs := fun n => if n = 4 then [S.value (S.const 14), v] else []) ⟨_, c1⟩ ?_ rfl rfl rfl ?_ ?_ ?_ ?_ ?_⟩
  · intro n hn
    rw [c1] at hn
    simp only [List.mem_cons, List.not_mem_nil, or_false, not_or] at hn
    simp [endMain, hn.1, hn.2.1, hn.2.2.1, hn.2.2.2]
  all_goals try
    intro n hn
    obtain ⟨q1, q2, q3⟩ := hn
    rw [c1] at q1
    obtain rfl | rfl : n = 4 ∨ n = 14 := by simp only [List.mem_cons, List.not_mem_nil, or_false] at q1; omega
  · refine ⟨rfl, fun k x hk => ?_⟩
    rcases k with _ | k
    · exact ⟨⟨2, 0, 4, 0⟩, by decide +kernel, rfl, rfl, hk⟩
    · cases hk
  · exact ⟨rfl, fun k x hk => by cases hk⟩
  · rfl
  · rfl
  · rfl
  · rfl
  · exact .cfg (sig := ⟨[bool], [bool, bool]⟩) (entry := 5) (rest := [6, 7]) rfl (by decide +kernel) blocks
  · exact .const (t := bool) rfl
  · refine ⟨rfl, fun k x hk => ?_⟩
    rcases k with _ | _ | k
    · exact ⟨⟨4, 0, 3, 0⟩, by decide +kernel, rfl, rfl, hk⟩
    · exact ⟨⟨4, 1, 3, 1⟩, by decide +kernel, rfl, rfl, hk⟩
    · cases hk

/-- ... also after the last block has moved out. -/
example : ∃ g, normalizeMoves (built endHistory) 20 21 22 23 = some g ∧ Returns g S 1 [v] [S.value (S.const 14), v] := by
  obtain ⟨g, _, _, _, _, _, _, h1, _⟩ := C76_exit_moved_partial (d1 := 20) (w1 := 21) (d := 22) (w := 23) end_ok.1 end_ok.2 rfl
    end_with end_closed (by decide +kernel) (by decide +kernel) (by decide)
  refine ⟨g, h1, (C76_exit_moved_returns_partial end_ok.1 end_ok.2 rfl end_with end_closed (by decide +kernel) (by decide +kernel)
    (by decide) ?_ ?_ rfl h1 _ _ _).2 (end_returns S v)⟩
  · rintro ⟨_, _, e⟩; cases e
  · rintro ⟨_, _, e⟩; cases e

end Run

end Verif.Patch
