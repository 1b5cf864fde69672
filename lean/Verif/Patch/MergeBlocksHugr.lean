import Verif.Patch.MergeBlocks
import Verif.Patch.CfgToDfgOutput
import Verif.Patch.ReplaceApplySpec

/-!
# The Hugr with the merged block
-/
namespace Verif.Patch

open Verif.Graph Verif.Ops Verif.Passes Verif.Validate Verif.Dataflow

variable {Meta : Type} {g : Hugr Ops.Op Meta}

theorem inputs_ports {op : Ops.Op} (h : op.tagOk = true) : opsInfo.inputs op = (op.ports .incoming).length := by
  change runGet 0 (op.portCount .incoming) = _
  rw [C10_port_count _ _ h]
  rfl

theorem outputs_ports {op : Ops.Op} (h : op.tagOk = true) : opsInfo.outputs op = (op.ports .outgoing).length := by
  change runGet 0 (op.portCount .outgoing) = _
  rw [C10_port_count _ _ h]
  rfl

/-- All that is needed of a replacement. -/
structure Sane (g : Hugr Ops.Op Meta) : Prop where
  tree : IsTree g
  links : LinksOk g
  ports : PortsFit g

/-- The Hugr with one more node. -/
def more (g : Hugr Ops.Op Meta) (idx p : Nat) (op : Ops.Op) : Hugr Ops.Op Meta := added g idx p op (g.children p ++ [idx])

theorem Sane.add (s : Sane g) {idx p : Nat} {op : Ops.Op} (hf : g.live idx = false) (hp : g.live p = true)
    (ho : op.tagOk = true) : addTo idx p op g = some (more g idx p op) ∧ Sane (more g idx p op) := by
  obtain ⟨a1, a2⟩ := addNodeWithParent_eq (op := op) s.tree hf hp
  refine ⟨a1, a2, ?_, ?_⟩
  · intro l hl
    obtain ⟨l1, l2, l3, l4⟩ := s.links l hl
    have n1 : l.src ≠ idx := by rintro e; rw [e, hf] at l1; cases l1
    have n2 : l.dst ≠ idx := by rintro e; rw [e, hf] at l3; cases l3
    simp only [more, added, upd, if_neg n1, if_neg n2]
    exact ⟨l1, l2, l3, l4⟩
  · intro n hn
    by_cases e : n = idx
    · subst e
      simp only [more, added, upd, if_true]
      exact ⟨ho, inputs_ports ho, outputs_ports ho⟩
    · simp only [more, added, upd, if_neg e] at hn ⊢
      exact s.ports n hn

theorem Sane.connect (s : Sane g) {ls : List Link}
    (hl : ∀ l ∈ ls, CanStart g l.src l.srcPort ∧ CanEnd g l.dst l.dstPort) :
    connectEvery ls g = some (SetLinks g (g.links ++ ls)) ∧ Sane (SetLinks g (g.links ++ ls)) := by
  refine ⟨?_, tree_of_eq s.tree rfl rfl rfl rfl rfl, ?_, s.ports⟩
  · have := connectMany (fun l : Link => l) ls g hl
    rw [List.map_id'] at this
    exact this
  · intro l h
    rcases List.mem_append.1 h with h | h
    · exact s.links l h
    · obtain ⟨⟨a, b⟩, c, d⟩ := hl l h
      exact ⟨a, b, c, d⟩

theorem Sane.start (s : Sane g) {n port : Nat} (hn : g.live n = true) (hp : port < ((g.ops n).ports .outgoing).length) :
    CanStart g n port := ⟨hn, by rw [(s.ports n hn).2.2]; exact hp⟩

theorem Sane.stop (s : Sane g) {n port : Nat} (hn : g.live n = true) (hp : port < ((g.ops n).ports .incoming).length) :
    CanEnd g n port := ⟨hn, by rw [(s.ports n hn).2.1]; exact hp⟩

theorem Sane.new : Sane (Hugr.new opsInfo.toOpInfo .module : Hugr Ops.Op Meta) := by
  refine ⟨(new_tree _ _).1, (new_tree _ _).2, ?_⟩
  intro n hn
  have : n = 0 := by simpa [Hugr.new] using hn
  subst this
  exact ⟨rfl, rfl, rfl⟩

theorem range_links {k : Nat} {F : Nat → Link} {l : Link} (hl : l ∈ (List.range k).map F) : ∃ i < k, l = F i := by
  obtain ⟨i, hi, rfl⟩ := List.mem_map.1 hl
  exact ⟨i, List.mem_range.1 hi, rfl⟩

/-- The Hugr that holds the control-flow graph. -/
def around (sig : Types.Signature) : Hugr Ops.Op Meta :=
  { more (more (more (more (Hugr.new opsInfo.toOpInfo .module) 1 0 (.funcDefn "main" ⟨[], sig⟩)) 2 1 (.input sig.input))
      3 1 (.output sig.output)) 4 1 (.cfg sig) with
    links := ([] ++ (List.range sig.input.length).map fun i => ⟨2, i, 4, i⟩) ++
      (List.range sig.output.length).map fun i => ⟨4, i, 3, i⟩
    entrypoint := 4 }

theorem newWithCfg_eq (sig : Types.Signature) : newWithCfg sig = some (around sig : Hugr Ops.Op Meta) ∧
    Sane (around sig : Hugr Ops.Op Meta) := by
  obtain ⟨e1, s1⟩ := (Sane.new (Meta := Meta)).add (idx := 1) (p := 0) (op := .funcDefn "main" ⟨[], sig⟩) rfl rfl rfl
  obtain ⟨e2, s2⟩ := s1.add (idx := 2) (p := 1) (op := .input sig.input) rfl rfl rfl
  obtain ⟨e3, s3⟩ := s2.add (idx := 3) (p := 1) (op := .output sig.output) rfl rfl rfl
  obtain ⟨e4, s4⟩ := s3.add (idx := 4) (p := 1) (op := .cfg sig) rfl rfl rfl
  obtain ⟨e5, s5⟩ := s4.connect (ls := (List.range sig.input.length).map fun i => ⟨2, i, 4, i⟩) (by
    intro l hl
    obtain ⟨i, hi, rfl⟩ := range_links hl
    exact ⟨s4.start rfl (by change i < (sig.input.map Kind.value ++ [Kind.stateOrder]).length; simp; omega),
      s4.stop rfl (by change i < (sig.input.map Kind.value ++ [Kind.stateOrder]).length; simp; omega)⟩)
  obtain ⟨e6, s6⟩ := s5.connect (ls := (List.range sig.output.length).map fun i => ⟨4, i, 3, i⟩) (by
    intro l hl
    obtain ⟨i, hi, rfl⟩ := range_links hl
    exact ⟨s5.start rfl (by change i < (sig.output.map Kind.value ++ [Kind.stateOrder]).length; simp; omega),
      s5.stop rfl (by change i < (sig.output.map Kind.value ++ [Kind.stateOrder]).length; simp; omega)⟩)
  constructor
  · unfold newWithCfg
    rw [e1]; simp only [Option.bind_some]
    rw [e2]; simp only [Option.bind_some]
    rw [e3]; simp only [Option.bind_some]
    rw [e4]; simp only [Option.bind_some]
    rw [e5]; simp only [Option.bind_some]
    rw [e6]; simp only [Option.bind_some]
    rfl
  · obtain ⟨t1, t2, t3, t4, t5, t6, t7, t8, t9⟩ := s6.tree
    exact ⟨⟨t1, rfl, t3, t4, t5, t6, t7, t8, t9⟩, s6.links, s6.ports⟩

/-- The links inside the merged block. -/
def innerLinks (T : TwoBlocks) (row : List Types.Ty) : List Link :=
  ((List.range T.pin.length).map fun i => ⟨6, i, 8, i⟩) ++
  ((List.range (T.sother.length + 1)).map fun i => ⟨9, i, 7, i⟩) ++ [⟨8, 0, 10, 0⟩] ++
  ((List.range row.length).map fun i => ⟨10, i, 9, i⟩) ++
  (List.range T.pother.length).map fun j => ⟨8, 1 + j, 9, row.length + j⟩

/-- The Hugr with the merged block, without links between blocks. -/
def mergedNodes (T : TwoBlocks) (row : List Types.Ty) : Hugr Ops.Op Meta :=
  more (more (more (more (more (more (around T.sig) 5 4 (.dataflowBlock T.pin T.sother T.srows)) 6 5 (.input T.pin))
    7 5 (.output (sumOf T.srows :: T.sother))) 8 5 (.dfg ⟨T.pin, sumOf T.prows :: T.pother⟩))
    9 5 (.dfg ⟨T.sin, sumOf T.srows :: T.sother⟩)) 10 5 (unpackOp row)

theorem Sane.wire_eq (s : Sane g) {w dst p v : Nat} {row other vi so : List Types.Ty} (hw : g.live w = false)
    (hd : g.live dst = true) (hv : g.live v = true) (hpar : g.getParent dst = some p) (hp : g.live p = true)
    (opd : g.ops dst = .dfg ⟨row ++ other, so⟩) (opv : g.ops v = .dfg ⟨vi, sumOf [row] :: other⟩) :
    wireUnpackFirst g w ((List.range (other.length + 1)).map fun i => (v, i)) [] dst = some (SetLinks
      (more g w p (unpackOp row)) (g.links ++ [⟨v, 0, w, 0⟩] ++ ((List.range row.length).map fun i => ⟨w, i, dst, i⟩) ++
        (List.range other.length).map fun j => ⟨v, 1 + j, dst, row.length + j⟩)) ∧
    Sane (SetLinks
      (more g w p (unpackOp row)) (g.links ++ [⟨v, 0, w, 0⟩] ++ ((List.range row.length).map fun i => ⟨w, i, dst, i⟩) ++
        (List.range other.length).map fun j => ⟨v, 1 + j, dst, row.length + j⟩)) := by
  have nd : dst ≠ w := by rintro rfl; rw [hw] at hd; cases hd
  have nv : v ≠ w := by rintro rfl; rw [hw] at hv; cases hv
  obtain ⟨e8, s8⟩ := s.add (idx := w) (p := p) (op := unpackOp row) hw hp rfl
  have opd' : (more g w p (unpackOp row)).ops dst = .dfg ⟨row ++ other, so⟩ := by simp [more, added, upd, nd, opd]
  have opv' : (more g w p (unpackOp row)).ops v = .dfg ⟨vi, sumOf [row] :: other⟩ := by simp [more, added, upd, nv, opv]
  have opw : (more g w p (unpackOp row)).ops w = unpackOp row := by simp [more, added, upd]
  have ld : (more g w p (unpackOp row)).live dst = true := by simp [more, added, upd, nd, hd]
  have lv : (more g w p (unpackOp row)).live v = true := by simp [more, added, upd, nv, hv]
  have lw : (more g w p (unpackOp row)).live w = true := by simp [more, added, upd]
  have startV : ∀ i < other.length + 1, CanStart (more g w p (unpackOp row)) v i := fun i hi => s8.start lv (by
    rw [opv']; change i < ((sumOf [row] :: other).map Kind.value ++ [Kind.stateOrder]).length; simp; omega)
  have startW : ∀ i < row.length, CanStart (more g w p (unpackOp row)) w i := fun i hi => s8.start lw (by
    rw [opw]; change i < (row.map Kind.value ++ [Kind.stateOrder]).length; simp; omega)
  have endW : CanEnd (more g w p (unpackOp row)) w 0 := s8.stop lw (by
    rw [opw]; change 0 < ([sumOf [row]].map Kind.value ++ [Kind.stateOrder]).length; simp)
  have endD : ∀ i < row.length + other.length, CanEnd (more g w p (unpackOp row)) dst i := fun i hi => s8.stop ld (by
    rw [opd']; change i < ((row ++ other).map Kind.value ++ [Kind.stateOrder]).length; simp; omega)
  have links : (more g w p (unpackOp row)).links = g.links := rfl
  constructor
  · unfold wireUnpackFirst
    rw [hpar, List.range_succ_eq_map, List.map_cons]
    simp only
    have hpk : (g.ops v).portKind .outgoing 0 = .ok (some (.value (sumOf [row]))) := by
      rw [C10_port_kind _ _ (s.ports v hv).1 _ (by
        rw [opv]; change 0 < ((sumOf [row] :: other).map Kind.value ++ [Kind.stateOrder]).length; simp), opv]
      rfl
    rw [hpk]
    simp only [tupleElems_sumOf]
    unfold addTo at e8
    rw [e8]
    simp only
    rw [connect_eq (startV 0 (by omega)) endW]
    simp only
    rw [connectMany (fun q => (⟨w, q, dst, q⟩ : Link)) (List.range row.length)
      (SetLinks (more g w p (unpackOp row)) ((more g w p (unpackOp row)).links ++ [(⟨v, 0, w, 0⟩ : Link)]))
      (fun q hq => ⟨startW q (List.mem_range.1 hq), endD q (by have := List.mem_range.1 hq; omega)⟩)]
    simp only [setLinks_links, setLinks_setLinks, setLinks_ops]
    rw [opd']
    have op1 : (Op.dfg ⟨row ++ other, so⟩).otherPortKind .incoming = some .stateOrder := rfl
    have op2 : (Op.dfg ⟨row ++ other, so⟩).otherPort .incoming = .ok (some (row ++ other).length) := by
      rw [C10_other_port _ _ rfl]
      change Run.ok (((row ++ other).map Kind.value ++ [Kind.stateOrder]).findIdx? Kind.isOther) = _
      rw [List.findIdx?_append, List.findIdx?_eq_none_iff.2 (by
        intro x hx; simp only [List.mem_map] at hx; obtain ⟨t, _, rfl⟩ := hx; rfl)]
      simp [List.findIdx?_cons, Kind.isOther]
    rw [op1, op2]
    simp only
    have hm : ((List.range other.length).map Nat.succ).map (fun i => (v, i)) =
        (List.range' 1 other.length).map fun i => (v, i) := by
      rw [show (Nat.succ : Nat → Nat) = (1 + ·) from funext fun n => Nat.succ_eq_one_add n, List.range_eq_range',
        List.map_add_range']
    rw [hm, wireRest_eq (order := (row ++ other).length) (fun i => (v, i)) other.length 1 row.length
      (SetLinks (more g w p (unpackOp row)) ((more g w p (unpackOp row)).links ++ [(⟨v, 0, w, 0⟩ : Link)] ++
        (List.range row.length).map fun q => (⟨w, q, dst, q⟩ : Link)))
      (fun j hj => ⟨by rw [List.length_append]; omega, startV (1 + j) (by omega), endD _ (by omega)⟩)]
    simp only [setLinks_links, setLinks_setLinks, each, links]
  · obtain ⟨_, s9⟩ := s8.connect (ls := [⟨v, 0, w, 0⟩]) (by
      intro l hl
      rw [List.mem_singleton] at hl
      subst hl
      exact ⟨startV 0 (by omega), endW⟩)
    obtain ⟨_, s10⟩ := s9.connect (ls := (List.range row.length).map fun i => ⟨w, i, dst, i⟩) (by
      intro l hl
      obtain ⟨i, hi, rfl⟩ := range_links hl
      exact ⟨startW i hi, endD i (by omega)⟩)
    exact (s10.connect (ls := (List.range other.length).map fun j => ⟨v, 1 + j, dst, row.length + j⟩) (by
      intro l hl
      obtain ⟨i, hi, rfl⟩ := range_links hl
      exact ⟨startV (1 + i) (by omega), endD (row.length + i) (by omega)⟩)).2

theorem mergedHugr_eq {T : TwoBlocks} {row : List Types.Ty} (hr : T.prows = [row]) (hs : T.sin = row ++ T.pother)
    {back : List Nat} (hb : ∀ s ∈ back, s < T.srows.length) : ∃ L,
    mergedHugr T back = some (SetLinks (mergedNodes T row) L : Hugr Ops.Op Meta) ∧
    Sane (SetLinks (mergedNodes T row) L : Hugr Ops.Op Meta) ∧
    ∀ l, l ∈ L ↔ l ∈ (around T.sig : Hugr Ops.Op Meta).links ∨ l ∈ innerLinks T row ∨ ∃ s ∈ back, l = ⟨5, s, 5, 0⟩ := by
  obtain ⟨e0, s0⟩ := newWithCfg_eq (Meta := Meta) T.sig
  obtain ⟨e1, s1⟩ := s0.add (idx := 5) (p := 4) (op := .dataflowBlock T.pin T.sother T.srows) rfl rfl rfl
  obtain ⟨e2, s2⟩ := s1.add (idx := 6) (p := 5) (op := .input T.pin) rfl rfl rfl
  obtain ⟨e3, s3⟩ := s2.add (idx := 7) (p := 5) (op := .output (sumOf T.srows :: T.sother)) rfl rfl rfl
  obtain ⟨e4, s4⟩ := s3.add (idx := 8) (p := 5) (op := .dfg ⟨T.pin, sumOf T.prows :: T.pother⟩) rfl rfl rfl
  obtain ⟨e5, s5⟩ := s4.connect (ls := (List.range T.pin.length).map fun i => ⟨6, i, 8, i⟩) (by
    intro l hl
    obtain ⟨i, hi, rfl⟩ := range_links hl
    exact ⟨s4.start rfl (by change i < (T.pin.map Kind.value ++ [Kind.stateOrder]).length; simp; omega),
      s4.stop rfl (by change i < (T.pin.map Kind.value ++ [Kind.stateOrder]).length; simp; omega)⟩)
  obtain ⟨e6, s6⟩ := s5.add (idx := 9) (p := 5) (op := .dfg ⟨T.sin, sumOf T.srows :: T.sother⟩) rfl rfl rfl
  obtain ⟨e7, s7⟩ := s6.connect (ls := (List.range (T.sother.length + 1)).map fun i => ⟨9, i, 7, i⟩) (by
    intro l hl
    obtain ⟨i, hi, rfl⟩ := range_links hl
    exact ⟨s6.start rfl (by
        change i < ((sumOf T.srows :: T.sother).map Kind.value ++ [Kind.stateOrder]).length; simp; omega),
      s6.stop rfl (by change i < ((sumOf T.srows :: T.sother).map Kind.value ++ [Kind.stateOrder]).length; simp; omega)⟩)
  have wire := s7.wire_eq (w := 10) (dst := 9) (p := 5) (v := 8) (row := row) (other := T.pother) (vi := T.pin)
    (so := sumOf T.srows :: T.sother) rfl rfl rfl rfl rfl
    (by change Op.dfg ⟨T.sin, _⟩ = _; rw [hs]) (by change Op.dfg ⟨_, sumOf T.prows :: _⟩ = _; rw [hr])
  obtain ⟨e8, s8⟩ := wire
  obtain ⟨e9, s9⟩ := s8.connect (ls := back.map fun s => ⟨5, s, 5, 0⟩) (by
    intro l hl
    obtain ⟨s, hs', rfl⟩ := List.mem_map.1 hl
    exact ⟨s8.start rfl (by change s < (T.srows.map fun _ => Kind.controlFlow).length; simpa using hb s hs'),
      s8.stop rfl (by change 0 < [Kind.controlFlow].length; simp)⟩)
  refine ⟨_, ?_, s9, ?_⟩
  · unfold mergedHugr
    rw [e0]; simp only [Option.bind_some]
    rw [e1]; simp only [Option.bind_some]
    rw [e2]; simp only [Option.bind_some]
    rw [e3]; simp only [Option.bind_some]
    rw [e4]; simp only [Option.bind_some]
    rw [e5]; simp only [Option.bind_some]
    rw [e6]; simp only [Option.bind_some]
    rw [e7]; simp only [Option.bind_some]
    rw [e8]; simp only [Option.bind_some]
    exact e9
  · intro l
    change l ∈ (((((((around T.sig : Hugr Ops.Op Meta).links ++ _) ++ _) ++ _) ++ _) ++ _) ++ _) ↔ _
    unfold innerLinks
    simp only [List.mem_append]
    have hb : l ∈ back.map (fun s => (⟨5, s, 5, 0⟩ : Link)) ↔ ∃ s ∈ back, l = ⟨5, s, 5, 0⟩ := by
      simp only [List.mem_map, eq_comm]
    rw [hb]
    constructor
    · rintro ((((((h | h) | h) | h) | h) | h) | h)
      · exact .inl h
      · exact .inr (.inl (.inl (.inl (.inl (.inl h)))))
      · exact .inr (.inl (.inl (.inl (.inl (.inr h)))))
      · exact .inr (.inl (.inl (.inl (.inr h))))
      · exact .inr (.inl (.inl (.inr h)))
      · exact .inr (.inl (.inr h))
      · exact .inr (.inr h)
    · rintro (h | ((((h | h) | h) | h) | h) | h)
      · exact .inl (.inl (.inl (.inl (.inl (.inl h)))))
      · exact .inl (.inl (.inl (.inl (.inl (.inr h)))))
      · exact .inl (.inl (.inl (.inl (.inr h))))
      · exact .inl (.inl (.inl (.inr h)))
      · exact .inl (.inl (.inr h))
      · exact .inl (.inr h)
      · exact .inr h

end Verif.Patch
