import Verif.Patch.OutlineValid
import Verif.Patch.CfgToDfgProps

/-!
# C75: blocks of a control-flow graph can be moved to a graph of their own
-/
namespace Verif.Patch

open Verif.Graph Verif.Ops Verif.Passes Verif.Validate Verif.Dataflow

variable {Meta : Type} {C : Validate.Context} {h g : Hugr Ops.Op Meta}

/-! ## Lemmas -/

theorem BlockInput.unique {op : Ops.Op} {a b : List Types.Ty} (ha : BlockInput op a) (hb : BlockInput op b) : a = b := by
  rcases ha with ⟨_, _, e⟩ | e <;> rcases hb with ⟨_, _, e'⟩ | e' <;> rw [e] at e' <;> cases e' <;> rfl

/-- What is passed to the blocks and what they pass on. -/
theorem SingleEntryExit.rows {G entry exit port outside : Nat} {bs : List Nat} (ht : IsTree h) (hv : Valid C h) (hb : AllBlocks h bs)
    (z : SingleEntryExit h G bs entry exit port outside) :
    ∃ ins outs, BlockInput (h.ops entry) ins ∧ BlockInput (h.ops outside) outs := by
  obtain ⟨x, y, r, e⟩ := hb entry z.entry_mem
  refine ⟨x, ?_⟩
  obtain ⟨x', y', r', e'⟩ := hb exit z.exit_mem
  obtain ⟨sig, hG⟩ := z.op
  have hp : h.hier.parent outside = some G := by
    obtain ⟨kind, h1, h2, p, hp, he⟩ := hv.kinds _ z.left
    have hk := (from_block hv z.left e').1
    rw [h1] at hk; cases hk
    rw [z.siblings _ z.exit_mem] at hp; cases hp
    rcases he with he | ⟨q, a, _, _, ⟨hs, _⟩ | ⟨⟨t, e, _⟩, _⟩⟩
    · exact he
    · cases hs
    · cases e
  obtain ⟨_, other, _, row, _, _, e3⟩ := hv.blocks _ z.left G sig hG ((ht.child_iff _ _).2 (z.siblings _ z.exit_mem))
    ((ht.child_iff _ _).2 hp)
  exact ⟨row ++ other, .inl ⟨_, _, e⟩, by rcases e3 with ⟨a, b, e⟩ | e; exacts [.inl ⟨a, b, e⟩, .inr e]⟩

theorem outline_error {bs : List Nat} {N : OutlineNew} :
    (∃ e, outlineCfg h bs N = .error e) ↔ ∃ e, computeEntryExit h bs = .error e := by
  unfold outlineCfg
  cases hc : computeEntryExit h bs with
  | error e => simp
  | ok r =>
    obtain ⟨a, b, c⟩ := r
    simp only [reduceCtorEq, exists_false, iff_false, not_exists]
    intro e
    cases h.ops a <;> cases h.getParent a <;> simp only <;> try simp only [reduceCtorEq, not_false_eq_true]
    split
    · simp
    · split
      · simp
      · split
        · simp
        · split <;> simp

/-! ## Theorems -/

/-- **C75** Blocks of a control-flow graph that are entered at one block and left by one link are moved to a
control-flow graph of their own, in a new block that takes their place. Nothing else changes. -/
theorem C75_outlined_partial (ht : IsTree h) (hv : Valid C h) {G entry exit port outside : Nat} {bs : List Nat} {N : OutlineNew}
    (hb : AllBlocks h bs) (hf : N.Fresh h) (z : SingleEntryExit h G bs entry exit port outside) (he : entry ≠ h.entrypoint) :
    ∃ g ins outs, outlineCfg h bs N = .ok g ∧ IsTree g ∧ BlockInput (h.ops entry) ins ∧ BlockInput (h.ops outside) outs ∧
      Outlined h G bs entry exit port outside ins outs N g := by
  obtain ⟨ins, outs, hi, ho⟩ := z.rows ht hv hb
  obtain ⟨g, h1, h2, h3⟩ := outline_ok ht hv hb hf he z hi ho
  exact ⟨g, ins, outs, h1, h2, hi, ho, h3⟩

/-- **C75** All other sets of blocks are refused. -/
theorem C75_refused_partial (ht : IsTree h) (hv : Valid C h) {bs : List Nat} {N : OutlineNew} (hd : bs.Nodup) (hb : AllBlocks h bs) :
    (∃ e, outlineCfg h bs N = .error e) ↔ ¬ ∃ G entry exit port outside, SingleEntryExit h G bs entry exit port outside := by
  rw [outline_error]
  constructor
  · rintro ⟨e, he⟩ ⟨G, entry, exit, port, outside, z⟩
    rw [z.compute ht hv hb] at he; cases he
  · intro hn
    cases hc : computeEntryExit h bs with
    | error e => exact ⟨e, rfl⟩
    | ok r =>
      obtain ⟨a, b, c⟩ := r
      obtain ⟨G, port, z⟩ := compute_single ht hv hd hb hc
      exact absurd ⟨G, a, b, port, c, z⟩ hn

/-- **C75** If the values of the blocks that are moved are used only in these blocks, and the new constant is the only
value of its type, then functions return what they did before. -/
theorem C75_returns_partial (ht : IsTree h) (hv : Valid C h) {G entry exit port outside : Nat} {bs : List Nat} {N : OutlineNew}
    (hb : AllBlocks h bs) (hf : N.Fresh h) (z : SingleEntryExit h G bs entry exit port outside) (he : entry ≠ h.entrypoint)
    (hs : ValuesStay h bs) (hn : ∀ x ∈ N.news, ¬ IsDefn h x) (hg : outlineCfg h bs N = .ok g) {W K : Type} (S : Sem W K)
    (hu : S.value (S.const N.const) = .sum 0 []) (f : Nat) (args res : List (Val W)) :
    Returns g S f args res ↔ Returns h S f args res := by
  obtain ⟨ins, outs, hi, ho⟩ := z.rows ht hv hb
  obtain ⟨g', h1, h2, h3⟩ := outline_ok ht hv hb hf he z hi ho
  rw [hg] at h1; cases h1
  exact (OutlineAt.returns ⟨ht, hv, hb, hf, z, hi, ho, h2, h3, hs⟩ hn hu).symm

/-- **C75** The result is valid, if the values of the blocks that are moved are used only in these blocks, and if control
that gets to the first of these blocks can get to the last. -/
theorem C75_valid_partial (ht : IsTree h) (hv : Valid C h) {G entry exit port outside : Nat} {bs : List Nat} {N : OutlineNew}
    (hb : AllBlocks h bs) (hf : N.Fresh h) (z : SingleEntryExit h G bs entry exit port outside) (he : entry ≠ h.entrypoint)
    (hs : ValuesStay h bs) (hx : CanReach h G entry → CanReach h G exit) (hc : C.constOk N.const = true)
    (hg : outlineCfg h bs N = .ok g) : Valid C g := by
  obtain ⟨ins, outs, hi, ho⟩ := z.rows ht hv hb
  obtain ⟨g', h1, h2, h3⟩ := outline_ok ht hv hb hf he z hi ho
  rw [hg] at h1; cases h1
  exact OutlineAt.valid_g ⟨ht, hv, hb, hf, z, hi, ho, h2, h3, hs⟩ hx hc

/-! ## Examples -/

/-- A block `b` of the control-flow graph 4, with its input `b + 1`, output `b + 2`, and `b + 3`, which says how control
goes on. It passes on the output of the node `from'`. -/
def flowBlock (b succs from' : Nat) : List (Cmd Ops.Op String) :=
  [ .addNodeWithParent b 4 (.dataflowBlock [bool] [bool] (List.replicate succs [])), .addNodeWithParent (b + 1) b (.input [bool]),
    .addNodeWithParent (b + 2) b (.output [sumOf (List.replicate succs []), bool]),
    .addNodeWithParent (b + 3) b (.tag 0 (List.replicate succs [])),
    .connect ⟨b + 3, 0, b + 2, 0⟩, .connect ⟨from', 0, b + 2, 1⟩ ]

/-- `main` is a control-flow graph with the entry block 5, the exit 9 and other blocks. -/
def flowHistory (succs : Nat) (blocks : List (Nat × Nat × Nat)) (edges : List (Nat × Nat × Nat)) (entrypoint : Nat) :
    List (Cmd Ops.Op String) :=
  [ .addNodeWithParent 1 0 (.funcDefn "main" ⟨[], ⟨[bool], [bool]⟩⟩), .addNodeWithParent 2 1 (.input [bool]),
    .addNodeWithParent 3 1 (.output [bool]), .addNodeWithParent 4 1 (.cfg ⟨[bool], [bool]⟩),
    .connect ⟨2, 0, 4, 0⟩, .connect ⟨4, 0, 3, 0⟩ ] ++ flowBlock 5 succs 6 ++ [.addNodeWithParent 9 4 (.exitBlock [bool])] ++
  blocks.flatMap (fun b => flowBlock b.1 b.2.1 b.2.2) ++ edges.map (fun e => .connect ⟨e.1, e.2.1, e.2.2, 0⟩) ++
  [ .setEntrypoint entrypoint ]

/-- The entry goes to 10, that goes to 14, and that goes to the exit or back to 10. -/
def loopFlow (entrypoint : Nat) : List (Cmd Ops.Op String) :=
  flowHistory 1 [(10, 1, 11), (14, 2, 15)] [(5, 0, 10), (10, 0, 14), (14, 0, 9), (14, 1, 10)] entrypoint

theorem loopFlow_ok {n : Nat} (hn : n = 4 ∨ n = 10) : IsTree (built (loopFlow n)) ∧ Valid unpackContext (built (loopFlow n)) := by
  rcases hn with rfl | rfl
  · obtain ⟨h1, h2⟩ := built_ok (loopFlow 4) (by decide +kernel) (by decide +kernel)
    exact ⟨h1, (C47_validate_iff_partial _ _ h1 h2).1 (by decide +kernel)⟩
  · obtain ⟨h1, h2⟩ := built_ok (loopFlow 10) (by decide +kernel) (by decide +kernel)
    exact ⟨h1, (C47_validate_iff_partial _ _ h1 h2).1 (by decide +kernel)⟩

/-- The new nodes. -/
def newNodes : OutlineNew := ⟨30, 31, 32, 33, 34, 35, 36⟩

theorem loopFlow_single (n : Nat) (hn : n = 4 ∨ n = 10) : SingleEntryExit (built (loopFlow n)) 4 [10, 14] 10 14 0 9 := by
  rcases hn with rfl | rfl <;>
    exact ⟨⟨_, rfl⟩, by decide +kernel, by decide +kernel, by decide +kernel, by decide +kernel, by decide +kernel, by decide +kernel,
      by decide +kernel, by decide +kernel⟩

theorem loopFlow_blocks (n : Nat) (hn : n = 4 ∨ n = 10) : AllBlocks (built (loopFlow n)) [10, 14] := by
  intro b hb
  simp only [List.mem_cons, List.not_mem_nil, or_false] at hb
  rcases hn with rfl | rfl <;> rcases hb with rfl | rfl <;> exact ⟨_, _, _, rfl⟩

/-- The children of two nodes and the links of the result. -/
def Outlining.view? (a b : Nat) : Outlining Meta → Option (List Nat × List Nat × List Link)
  | .ok g => some (g.children a, g.children b, g.links)
  | _ => none

/-- The parents of some nodes, and whether there is a link. -/
def Outlining.parents? (ns : List Nat) (l : Link) : Outlining Meta → Option (List (Option Nat) × Bool)
  | .ok g => some (ns.map g.hier.parent, decide (l ∈ g.links))
  | _ => none

/-- Whether the code panics. -/
def Outlining.panics : Outlining Meta → Bool
  | .panic => true
  | _ => false

/-- The hypotheses are met, and the loop is now in a block of its own. -/
example : (∃ g ins outs, outlineCfg (built (loopFlow 4)) [10, 14] newNodes = .ok g ∧
      Outlined (built (loopFlow 4)) 4 [10, 14] 10 14 0 9 ins outs newNodes g) ∧ ValuesStay (built (loopFlow 4)) [10, 14] ∧
    ∃ g, outlineCfg (built (loopFlow 4)) [10, 14] newNodes = .ok g ∧ g.children 4 = [5, 9, 30] ∧ g.children 33 = [10, 34, 14] := by
  refine ⟨?_, ?_, ?_⟩
  · obtain ⟨g, ins, outs, h1, _, _, _, h2⟩ := C75_outlined_partial (loopFlow_ok (.inl rfl)).1 (loopFlow_ok (.inl rfl)).2
      (loopFlow_blocks 4 (.inl rfl)) (N := newNodes) ⟨by decide +kernel, by decide +kernel⟩ (loopFlow_single 4 (.inl rfl)) (by decide +kernel)
    exact ⟨g, ins, outs, h1, h2⟩
  · intro l hl q hq hp
    have : ∀ l ∈ (built (loopFlow 4)).links, ∀ q ∈ [10, 14], (built (loopFlow 4)).hier.parent l.src = some q →
      (built (loopFlow 4)).hier.parent l.dst = some q := by decide +kernel
    exact ⟨q, hq, .step (this l hl q hq hp) (.refl _)⟩
  · have : ((outlineCfg (built (loopFlow 4)) [10, 14] newNodes).view? 4 33).map (fun v => (v.1, v.2.1)) =
      some ([5, 9, 30], [10, 34, 14]) := by decide +kernel
    cases hn : outlineCfg (built (loopFlow 4)) [10, 14] newNodes with
    | ok g =>
      rw [hn] at this
      have := Option.some.inj this
      exact ⟨g, rfl, (Prod.mk.inj this).1, (Prod.mk.inj this).2⟩
    | _ => rw [hn] at this; cases this

/-- The last block can be reached, and the result is valid. -/
example : ∃ g, outlineCfg (built (loopFlow 4)) [10, 14] newNodes = .ok g ∧ Valid unpackContext g := by
  obtain ⟨ht, hv⟩ := loopFlow_ok (.inl rfl)
  have hf : newNodes.Fresh (built (loopFlow 4)) := ⟨by decide +kernel, by decide +kernel⟩
  obtain ⟨g, _, _, h1, _⟩ := C75_outlined_partial ht hv (loopFlow_blocks 4 (.inl rfl)) hf (loopFlow_single 4 (.inl rfl)) (by decide +kernel)
  refine ⟨g, h1, C75_valid_partial ht hv (loopFlow_blocks 4 (.inl rfl)) hf (loopFlow_single 4 (.inl rfl)) (by decide +kernel) ?_ ?_
    rfl h1⟩
  · intro l hl q hq hp
    have : ∀ l ∈ (built (loopFlow 4)).links, ∀ q ∈ [10, 14], (built (loopFlow 4)).hier.parent l.src = some q →
      (built (loopFlow 4)).hier.parent l.dst = some q := by decide +kernel
    exact ⟨q, hq, .step (this l hl q hq hp) (.refl _)⟩
  · intro _ f r hr
    have hk : (built (loopFlow 4)).children 4 = [5, 9, 10, 14] := by decide +kernel
    rw [hk] at hr; cases hr
    have edge : ∀ {l : Link}, l ∈ (built (loopFlow 4)).links → l.src ∈ [5, 9, 10, 14] → l.dst ∈ [5, 9, 10, 14] →
        RegionEdge (built (loopFlow 4)) 4 l.src l.dst := fun {l} h1 h2 h3 => ⟨hk ▸ h2, hk ▸ h3, l, h1, rfl, rfl⟩
    exact (Relation.ReflTransGen.single (edge (l := ⟨5, 0, 10, 0⟩) (by decide +kernel) (by decide) (by decide))).tail
      (edge (l := ⟨10, 0, 14, 0⟩) (by decide +kernel) (by decide) (by decide))

/-- Without the block that goes to the exit, more than one link leaves. -/
example : ∃ e, outlineCfg (built (loopFlow 4)) [5, 14] newNodes = .error e := by
  refine (C75_refused_partial (loopFlow_ok (.inl rfl)).1 (loopFlow_ok (.inl rfl)).2 (by decide) ?_).2 ?_
  · intro b hb
    simp only [List.mem_cons, List.not_mem_nil, or_false] at hb
    rcases hb with rfl | rfl
    · exact ⟨_, _, _, rfl⟩
    · exact ⟨_, _, _, rfl⟩
  · rintro ⟨G, entry, exit, port, outside, z⟩
    have h1 := (z.leaves ⟨14, 0, 9, 0⟩ (by decide +kernel) (by decide)).1 (by decide)
    have h2 := (z.leaves ⟨5, 0, 10, 0⟩ (by decide +kernel) (by decide)).1 (by decide)
    exact absurd (h1.1.trans h2.1.symm) (by decide)

/-! ## Findings -/

/-- **C75** In a valid Hugr, when the block at which the blocks are entered is the entrypoint, then `OutlineCfg` panics,
after it has changed the Hugr: the entrypoint cannot be moved, outline_cfg.rs:189 and hugrmut.rs. -/
theorem C75_entrypoint_panics : ∃ (h : Hugr Ops.Op String) (N : OutlineNew), IsTree h ∧ Valid unpackContext h ∧ N.Fresh h ∧
    (∃ G bs entry exit port outside, AllBlocks h bs ∧ SingleEntryExit h G bs entry exit port outside ∧
      outlineCfg h bs N = .panic) := by
  refine ⟨built (loopFlow 10), newNodes, (loopFlow_ok (.inr rfl)).1, (loopFlow_ok (.inr rfl)).2, ⟨by decide +kernel, by decide +kernel⟩,
    4, [10, 14], 10, 14, 0, 9, loopFlow_blocks 10 (.inr rfl), loopFlow_single 10 (.inr rfl), ?_⟩
  have : (outlineCfg (built (loopFlow 10)) [10, 14] newNodes).panics = true := by decide +kernel
  cases hn : outlineCfg (built (loopFlow 10)) [10, 14] newNodes with
  | panic => rfl
  | _ => rw [hn] at this; cases this

/-- The entry goes to 10, that goes to the exit or to 14, and that goes back to 10. -/
def exitFlow : List (Cmd Ops.Op String) := flowHistory 1 [(10, 2, 11), (14, 1, 15)] [(5, 0, 10), (10, 0, 9), (10, 1, 14), (14, 0, 10)] 4

/-- **C75** In a valid Hugr, when the exit of the control-flow graph is among the blocks to move, it is moved too, and the
result is not valid: the control-flow graph has no exit. -/
theorem C75_exit_block_accepted : ∃ (h g : Hugr Ops.Op String) (bs : List Nat) (N : OutlineNew), IsTree h ∧ Valid unpackContext h ∧
    N.Fresh h ∧ (∀ b ∈ bs, ∃ row, BlockInput (h.ops b) row) ∧ outlineCfg h bs N = .ok g ∧ ∀ C, ¬ Valid C g := by
  obtain ⟨h1, h2⟩ := built_ok exitFlow (by decide +kernel) (by decide +kernel)
  have hv := (C47_validate_iff_partial unpackContext _ h1 h2).1 (by decide +kernel)
  have hrun : ((outlineCfg (built exitFlow) [10, 9] newNodes).view? 4 4).map (fun v => v.1) = some [5, 14, 30] := by decide +kernel
  cases hn : outlineCfg (built exitFlow) [10, 9] newNodes with
  | ok g =>
    refine ⟨built exitFlow, g, [10, 9], newNodes, h1, hv, ⟨by decide +kernel, by decide +kernel⟩, ?_, hn, ?_⟩
    · intro b hb
      simp only [List.mem_cons, List.not_mem_nil, or_false] at hb
      rcases hb with rfl | rfl
      · exact ⟨_, .inl ⟨_, _, rfl⟩⟩
      · exact ⟨_, .inr rfl⟩
    · intro C hv
      rw [hn] at hrun
      have hk : g.children 4 = [5, 14, 30] := Option.some.inj hrun
      let ask : Outlining String → Option (Bool × Ops.Op × Ops.Op) := fun o =>
        match o with | .ok g => some (g.live 4, g.ops 4, g.ops 14) | _ => none
      have ho : ask (outlineCfg (built exitFlow) [10, 9] newNodes) =
        some (true, .cfg ⟨[bool], [bool]⟩, .dataflowBlock [bool] [bool] [[]]) := rfl
      rw [hn] at ho
      obtain ⟨o1, o2⟩ := Prod.mk.inj (Option.some.inj ho)
      obtain ⟨o2, o3⟩ := Prod.mk.inj o2
      have := hv.children 4 o1
      unfold ChildrenOk at this
      rw [o2] at this
      obtain ⟨a, b, _, _, _, e1, _, e3, _⟩ := this
      rw [hk] at e1; cases e1
      rw [o3] at e3; cases e3
  | _ => rw [hn] at hrun; cases hrun

/-- The entry goes to 10, that goes to 14, and that to the exit; 14 uses a value of 10. -/
def domFlow : List (Cmd Ops.Op String) := flowHistory 1 [(10, 1, 11), (14, 1, 11)] [(5, 0, 10), (10, 0, 14), (14, 0, 9)] 4

/-- **C75** In a valid Hugr, when a block that is not moved uses a value of a block that is moved, then the result is
not valid: the value comes from inside of the new block. -/
theorem C75_value_used_outside_refuted : ∃ (h g : Hugr Ops.Op String) (N : OutlineNew), IsTree h ∧ Valid unpackContext h ∧ N.Fresh h ∧
    (∃ G bs entry exit port outside, AllBlocks h bs ∧ SingleEntryExit h G bs entry exit port outside ∧
      outlineCfg h bs N = .ok g) ∧ ∀ C, ¬ Valid C g := by
  obtain ⟨h1, h2⟩ := built_ok domFlow (by decide +kernel) (by decide +kernel)
  have hv := (C47_validate_iff_partial unpackContext _ h1 h2).1 (by decide +kernel)
  have hrun : (outlineCfg (built domFlow) [10] newNodes).parents? [11, 10, 16, 14, 4, 1, 0] ⟨11, 0, 16, 1⟩ =
    some ([some 10, some 33, some 14, some 4, some 1, some 0, none], true) := by decide +kernel
  cases hn : outlineCfg (built domFlow) [10] newNodes with
  | ok g =>
    refine ⟨built domFlow, g, newNodes, h1, hv, ⟨by decide +kernel, by decide +kernel⟩, ⟨4, [10], 10, 10, 0, 14, ?_, ?_, hn⟩, ?_⟩
    · intro b hb
      simp only [List.mem_cons, List.not_mem_nil, or_false] at hb
      subst hb
      exact ⟨_, _, _, rfl⟩
    · exact ⟨⟨_, rfl⟩, by decide +kernel, by decide +kernel, by decide +kernel, by decide +kernel, by decide +kernel, by decide +kernel,
        by decide +kernel, by decide +kernel⟩
    · intro C hv
      rw [hn] at hrun
      obtain ⟨hp, hl⟩ := Prod.mk.inj (Option.some.inj hrun)
      simp only [List.map_cons, List.map_nil, List.cons.injEq, and_true] at hp
      obtain ⟨p11, p10, p16, p14, p4, p1, p0⟩ := hp
      have hl : (⟨11, 0, 16, 1⟩ : Link) ∈ g.links := by simpa using hl
      obtain ⟨kind, _, _, p, e1, he⟩ := hv.kinds _ hl
      rw [p11] at e1; cases e1
      have up : ∀ a, Above g.hier.parent 14 a → g.hier.parent a ≠ some 10 ∧ g.hier.parent a ≠ some 33 := by
        intro a ha
        rcases above_cases ha with rfl | ⟨q, hq, ha⟩
        · rw [p14]; decide
        · rw [p14] at hq; cases hq
          rcases above_cases ha with rfl | ⟨q, hq, ha⟩
          · rw [p4]; decide
          · rw [p4] at hq; cases hq
            rcases above_cases ha with rfl | ⟨q, hq, ha⟩
            · rw [p1]; decide
            · rw [p1] at hq; cases hq
              rcases above_cases ha with rfl | ⟨q, hq, ha⟩
              · rw [p0]; decide
              · rw [p0] at hq; cases hq
      rcases he with e | ⟨q, a, e, ha, he⟩
      · rw [p16] at e; cases e
      · rw [p16] at e; cases e
        obtain ⟨u1, u2⟩ := up a ha
        rcases he with ⟨_, e⟩ | ⟨_, ⟨e, _⟩ | ⟨G, _, _, _, _, e1, e2, _⟩⟩
        · exact u1 e
        · exact u1 e
        · rw [p10] at e1; cases e1
          exact u2 e2
  | _ => rw [hn] at hrun; cases hrun

/-- The entry goes to 10 and to 18. 10 goes to itself. Control does not get to 14, that goes to 22. 18 goes to 22, that
uses a value of 18 and goes to the exit. -/
def deadFlow : List (Cmd Ops.Op String) :=
  flowHistory 2 [(10, 1, 11), (14, 1, 15), (18, 1, 19), (22, 1, 19)]
    [(5, 0, 10), (5, 1, 18), (10, 0, 10), (14, 0, 22), (18, 0, 22), (22, 0, 9)] 4

/-- **C75** In a valid Hugr, when control cannot get to the block that leads out of the blocks to move, the result can be
invalid, although no value of these blocks is used outside: the new block leads on, and a block after it uses values of
a block that now can be passed by. -/
theorem C75_unreachable_exit_refuted : ∃ (h g : Hugr Ops.Op String) (N : OutlineNew), IsTree h ∧ Valid unpackContext h ∧ N.Fresh h ∧
    (∃ G bs entry exit port outside, AllBlocks h bs ∧ SingleEntryExit h G bs entry exit port outside ∧ ValuesStay h bs ∧
      outlineCfg h bs N = .ok g) ∧ ∀ C, ¬ Valid C g := by
  obtain ⟨h1, h2⟩ := built_ok deadFlow (by decide +kernel) (by decide +kernel)
  have hv := (C47_validate_iff_partial unpackContext _ h1 h2).1 (by decide +kernel)
  have hrun : (outlineCfg (built deadFlow) [10, 14] newNodes).parents? [19, 18, 24, 22, 4, 1, 0] ⟨19, 0, 24, 1⟩ =
    some ([some 18, some 4, some 22, some 4, some 1, some 0, none], true) := by decide +kernel
  have hview : ((outlineCfg (built deadFlow) [10, 14] newNodes).view? 4 33).map
      (fun v => (v.1, v.2.2.contains ⟨5, 0, 30, 0⟩, v.2.2.contains ⟨30, 0, 22, 0⟩, v.2.2.filter fun l => l.src == 19)) =
    some ([5, 9, 18, 22, 30], true, true, [⟨19, 0, 20, 1⟩, ⟨19, 0, 24, 1⟩]) := by decide +kernel
  cases hn : outlineCfg (built deadFlow) [10, 14] newNodes with
  | ok g =>
    refine ⟨built deadFlow, g, newNodes, h1, hv, ⟨by decide +kernel, by decide +kernel⟩, ⟨4, [10, 14], 10, 14, 0, 22, ?_, ?_, ?_, hn⟩, ?_⟩
    · intro b hb
      simp only [List.mem_cons, List.not_mem_nil, or_false] at hb
      rcases hb with rfl | rfl <;> exact ⟨_, _, _, rfl⟩
    · exact ⟨⟨_, rfl⟩, by decide +kernel, by decide +kernel, by decide +kernel, by decide +kernel, by decide +kernel, by decide +kernel,
        by decide +kernel, by decide +kernel⟩
    · intro l hl q hq hp
      have : ∀ l ∈ (built deadFlow).links, ∀ q ∈ [10, 14], (built deadFlow).hier.parent l.src = some q →
        (built deadFlow).hier.parent l.dst = some q := by decide +kernel
      exact ⟨q, hq, .step (this l hl q hq hp) (.refl _)⟩
    · intro C hv
      rw [hn] at hrun hview
      obtain ⟨hp, hl⟩ := Prod.mk.inj (Option.some.inj hrun)
      obtain ⟨hk, hview⟩ := Prod.mk.inj (Option.some.inj hview)
      obtain ⟨l1, hview⟩ := Prod.mk.inj hview
      obtain ⟨l2, l3⟩ := Prod.mk.inj hview
      simp only [List.map_cons, List.map_nil, List.cons.injEq, and_true] at hp
      obtain ⟨p19, p18, p24, p22, p4, p1, p0⟩ := hp
      have hl : (⟨19, 0, 24, 1⟩ : Link) ∈ g.links := by simpa using hl
      have l1 : (⟨5, 0, 30, 0⟩ : Link) ∈ g.links := by simpa using l1
      have l2 : (⟨30, 0, 22, 0⟩ : Link) ∈ g.links := by simpa using l2
      obtain ⟨kind, _, _, p, e1, he⟩ := hv.kinds _ hl
      rw [p19] at e1; cases e1
      have up : ∀ a, Above g.hier.parent 22 a → g.hier.parent a ≠ some 18 ∧ (g.hier.parent a = some 4 → a = 22) := by
        intro a ha
        rcases above_cases ha with rfl | ⟨q, hq, ha⟩
        · rw [p22]; exact ⟨by decide, fun _ => rfl⟩
        · rw [p22] at hq; cases hq
          rcases above_cases ha with rfl | ⟨q, hq, ha⟩
          · rw [p4]; exact ⟨by decide, fun e => by cases e⟩
          · rw [p4] at hq; cases hq
            rcases above_cases ha with rfl | ⟨q, hq, ha⟩
            · rw [p1]; exact ⟨by decide, fun e => by cases e⟩
            · rw [p1] at hq; cases hq
              rcases above_cases ha with rfl | ⟨q, hq, ha⟩
              · rw [p0]; exact ⟨by decide, fun e => by cases e⟩
              · rw [p0] at hq; cases hq
      rcases he with e | ⟨q, a, e, ha, he⟩
      · rw [p24] at e; cases e
      · rw [p24] at e; cases e
        obtain ⟨u1, u2⟩ := up a ha
        rcases he with ⟨_, e⟩ | ⟨_, ⟨e, _⟩ | ⟨G, _, f, _, _, e1, e2, _, e4, e5⟩⟩
        · exact u1 e
        · exact u1 e
        · rw [p18] at e1; cases e1
          have := u2 e2
          subst this
          have hk : g.children 4 = [5, 9, 18, 22, 30] := hk
          rw [hk] at e4; cases e4
          have := e5.2 [5, 30, 22] rfl rfl (by
            rw [List.isChain_cons_cons, List.isChain_cons_cons]
            exact ⟨⟨by rw [hk]; decide, by rw [hk]; decide, _, l1, rfl, rfl⟩, ⟨by rw [hk]; decide, by rw [hk]; decide, _, l2, rfl, rfl⟩,
              .singleton _⟩)
          simp at this
  | _ => rw [hn] at hrun; cases hrun

end Verif.Patch
