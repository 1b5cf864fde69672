import Verif.Ops.OpType

/-!
# C10: port numbering
-/
namespace Verif.Ops

open Verif.Types

/-! ## Specification -/

/-- The ports of an operation in one direction, in order: values, then a static port, then order or
control-flow ports.  This is the table of the HUGR specification (section "Operations"), written out
operation by operation. -/
def Op.ports : Op → Dir → List Kind
  | .module, _ => []
  | .aliasDefn .., _ => []
  | .aliasDecl .., _ => []
  | .case _, _ => []
  | .funcDefn _ s, .outgoing => [.function s]
  | .funcDecl _ s, .outgoing => [.function s]
  | .const t, .outgoing => [.const t]
  | .funcDefn .., .incoming => []
  | .funcDecl .., .incoming => []
  | .const _, .incoming => []
  | .input _, .incoming => []
  | .input ts, .outgoing => ts.map .value ++ [.stateOrder]
  | .output ts, .incoming => ts.map .value ++ [.stateOrder]
  | .output _, .outgoing => []
  | .call s _ i, .incoming => i.input.map .value ++ [.function s, .stateOrder]
  | .call _ _ i, .outgoing => i.output.map .value ++ [.stateOrder]
  | .callIndirect s, .incoming => .value (functionOf s) :: s.input.map .value ++ [.stateOrder]
  | .callIndirect s, .outgoing => s.output.map .value ++ [.stateOrder]
  | .loadConstant t, .incoming => [.const t, .stateOrder]
  | .loadConstant t, .outgoing => [.value t, .stateOrder]
  | .loadFunction s _ _, .incoming => [.function s, .stateOrder]
  | .loadFunction _ _ i, .outgoing => [.value (functionOf i), .stateOrder]
  | .dfg s, .incoming => s.input.map .value ++ [.stateOrder]
  | .dfg s, .outgoing => s.output.map .value ++ [.stateOrder]
  | .extensionOp _ _ _ s, .incoming => s.input.map .value ++ [.stateOrder]
  | .extensionOp _ _ _ s, .outgoing => s.output.map .value ++ [.stateOrder]
  | .tag k vs, .incoming => (vs[k]?.getD []).map .value ++ [.stateOrder]
  | .tag _ vs, .outgoing => [.value (sumOf vs), .stateOrder]
  | .dataflowBlock .., .incoming => [.controlFlow]
  | .dataflowBlock _ _ rows, .outgoing => rows.map fun _ => .controlFlow
  | .exitBlock _, .incoming => [.controlFlow]
  | .exitBlock _, .outgoing => []
  | .tailLoop ji _ rest, .incoming => (ji ++ rest).map .value ++ [.stateOrder]
  | .tailLoop _ jo rest, .outgoing => (jo ++ rest).map .value ++ [.stateOrder]
  | .cfg s, .incoming => s.input.map .value ++ [.stateOrder]
  | .cfg s, .outgoing => s.output.map .value ++ [.stateOrder]
  | .conditional rows other _, .incoming =>
    .value (sumOf rows) :: other.map .value ++ [.stateOrder]
  | .conditional _ _ outs, .outgoing => outs.map .value ++ [.stateOrder]

/-- The tag of a `Tag` operation is one of its variants. -/
def Op.tagOk : Op → Bool
  | .tag k vs => decide (k < vs.length)
  | _ => true

def Kind.isValue : Kind → Bool
  | .value _ => true
  | _ => false

/-- `EdgeKind::is_static`, hugr-core/src/types.rs:79-81. -/
def Kind.isStatic : Kind → Bool
  | .const _ => true
  | .function _ => true
  | _ => false

def Kind.isOther : Kind → Bool
  | .controlFlow => true
  | .stateOrder => true
  | _ => false

/-! ## Lemmas -/

/-- The three ranges, as the code numbers them. -/
theorem ports_eq (op : Op) (dir : Dir) (h : op.tagOk = true) :
    ∃ s, op.dataflowSignature = .ok s ∧
      op.ports dir = (sigRow (s.getD ⟨[], []⟩) dir).map .value ++ (op.staticPortKind dir).toList ++
        List.replicate (op.nonDfPortCount dir) ((op.otherPortKind dir).getD .controlFlow) ∧
      (op.nonDfPortCount dir ≠ 0 → (op.otherPortKind dir).isSome = true) := by
  have hrep : ∀ (rows : List (List Ty)),
      (rows.map fun _ => Kind.controlFlow) = List.replicate rows.length Kind.controlFlow := by
    intro rows; induction rows with
    | nil => rfl
    | cons r rs ih => simp [List.replicate_succ, ih]
  cases op with
  | tag k vs =>
    have hk : k < vs.length := by simpa [Op.tagOk] using h
    have hv : vs[k]? = some vs[k] := List.getElem?_eq_getElem hk
    refine ⟨some ⟨vs[k], [sumOf vs]⟩, by simp [Op.dataflowSignature, hv], ?_, ?_⟩ <;> cases dir <;>
      simp [Op.ports, sigRow, Op.staticPortKind, Op.staticInput, Op.staticOutput, Op.nonDfPortCount,
        Op.otherPortKind, Op.otherInput, Op.otherOutput, hv, List.replicate]
  | dataflowBlock i o r =>
    refine ⟨_, rfl, ?_, ?_⟩ <;> cases dir <;>
      simp [Op.ports, sigRow, Op.staticPortKind, Op.staticInput, Op.staticOutput, Op.nonDfPortCount,
        Op.otherPortKind, Op.otherInput, Op.otherOutput, List.replicate, hrep]
  | _ =>
    refine ⟨_, rfl, ?_, ?_⟩ <;> cases dir <;>
      simp [Op.ports, sigRow, Op.staticPortKind, Op.staticInput, Op.staticOutput, Op.nonDfPortCount,
        Op.otherPortKind, Op.otherInput, Op.otherOutput, List.replicate]

theorem static_isStatic (op : Op) (dir : Dir) (k : Kind) (h : op.staticPortKind dir = some k) :
    k.isStatic = true := by
  cases op <;> cases dir <;>
    simp [Op.staticPortKind, Op.staticInput, Op.staticOutput] at h <;> subst h <;> rfl

theorem other_isOther (op : Op) (dir : Dir) (k : Kind) (h : op.otherPortKind dir = some k) :
    k.isOther = true := by
  cases op <;> cases dir <;>
    simp [Op.otherPortKind, Op.otherInput, Op.otherOutput] at h <;> subst h <;> rfl

/-- The static inputs announced by the tag are the static inputs of the operation. -/
theorem tag_static (op : Op) :
    OpTag.isSuperset .staticInput op.opTag = (op.staticPortKind .incoming).isSome := by
  cases op <;>
    simp only [Op.opTag, Op.staticPortKind, Op.staticInput, Option.isSome_some,
      Option.isSome_none] <;> decide +kernel

/-! ## Theorems -/

/-- C10 (count): the number of ports is the number of ports in the table. -/
theorem C10_port_count (op : Op) (dir : Dir) (h : op.tagOk = true) :
    op.portCount dir = .ok (op.ports dir).length := by
  obtain ⟨s, hs, hp, -⟩ := ports_eq op dir h
  rw [hp]
  cases hk : op.staticPortKind dir <;> cases s <;> cases dir <;>
    simp [Op.portCount, Op.valuePortCount, hs, Run.map, hk, sigRow] <;> omega

/-- C10 (kinds): the kind of every port is the one in the table. -/
theorem C10_port_kind (op : Op) (dir : Dir) (h : op.tagOk = true) (idx : Nat)
    (hi : idx < (op.ports dir).length) :
    op.portKind dir idx = .ok (op.ports dir)[idx]? := by
  obtain ⟨s, hs, hp, ho⟩ := ports_eq op dir h
  rw [hp] at hi ⊢
  unfold Op.portKind
  rw [hs]
  simp only []
  generalize sigRow (s.getD ⟨[], []⟩) dir = row at *
  cases hk : op.staticPortKind dir with
  | some k =>
    simp only [Option.isSome_some, and_true, Option.toList_some] 
    by_cases h1 : idx < row.length
    · simp [h1, List.getElem?_append]
    · simp only [h1, if_false]
      by_cases h2 : idx = row.length
      · subst h2; simp
      · have hn : op.nonDfPortCount dir ≠ 0 := by
          intro h0; simp [hk, h0] at hi; omega
        obtain ⟨o, hoo⟩ := Option.isSome_iff_exists.mp (ho hn)
        simp only [hk, Option.toList_some, List.length_append, List.length_map,
          List.length_singleton, List.length_replicate] at hi
        rw [if_neg h2, List.getElem?_append_right (by simp; omega)]
        simp [hoo, List.getElem?_replicate]; omega
  | none =>
    simp only [Option.isSome_none, Bool.false_eq_true, and_false, if_false, Option.toList_none,
      List.append_nil]
    by_cases h1 : idx < row.length
    · simp [h1, List.getElem?_append]
    · simp only [h1, if_false]
      simp only [hk, Option.toList_none, List.append_nil, List.length_append, List.length_map,
          List.length_replicate] at hi
      have hn : op.nonDfPortCount dir ≠ 0 := by
          intro h0; simp [h0] at hi; omega
      obtain ⟨o, hoo⟩ := Option.isSome_iff_exists.mp (ho hn)
      rw [List.getElem?_append_right (by simp; omega)]
      simp [hoo, List.getElem?_replicate]; omega

/-- C10 (ranges): value ports come first, then at most one static port, then the others; so the
three ranges are disjoint and cover all ports. -/
theorem C10_ranges (op : Op) (dir : Dir) (h : op.tagOk = true) :
    ∃ (vs ss os : List Kind), op.ports dir = vs ++ ss ++ os ∧
      (∀ k ∈ vs, k.isValue = true) ∧ (∀ k ∈ ss, k.isStatic = true) ∧ (∀ k ∈ os, k.isOther = true) ∧
      op.valuePortCount dir = .ok vs.length ∧ ss.length ≤ 1 ∧
      ss.length = (if (op.staticPortKind dir).isSome then 1 else 0) ∧
      os.length = op.nonDfPortCount dir := by
  obtain ⟨s, hs, hp, ho⟩ := ports_eq op dir h
  refine ⟨_, _, _, hp, by simp [Kind.isValue], ?_, ?_, ?_, ?_, ?_, by simp⟩
  · intro k hk
    exact static_isStatic op dir k (by simpa using hk)
  · intro k hk
    obtain ⟨hn, rfl⟩ := List.mem_replicate.mp hk
    obtain ⟨o, hoo⟩ := Option.isSome_iff_exists.mp (ho hn)
    rw [hoo]; exact other_isOther op dir o hoo
  · cases s <;> cases dir <;> simp [Op.valuePortCount, hs, sigRow]
  · cases op.staticPortKind dir <;> simp
  · cases op.staticPortKind dir <;> simp

/-- C10 (static port): the static port is the only port with a static kind. -/
theorem C10_static_port (op : Op) (dir : Dir) (h : op.tagOk = true) :
    op.staticPort dir = .ok ((op.ports dir).findIdx? Kind.isStatic) ∧
    ∀ (i j : Nat) (ki kj : Kind), (op.ports dir)[i]? = some ki → (op.ports dir)[j]? = some kj →
      ki.isStatic = true → kj.isStatic = true → i = j := by
  obtain ⟨s, hs, hp, ho⟩ := ports_eq op dir h
  have hv : op.valuePortCount dir = .ok (sigRow (s.getD ⟨[], []⟩) dir).length := by
    cases s <;> cases dir <;> simp [Op.valuePortCount, hs, sigRow]
  rw [hp]
  generalize sigRow (s.getD ⟨[], []⟩) dir = row at *
  have hnov : (row.map Kind.value).findIdx? Kind.isStatic = none := by
    simp [List.findIdx?_eq_none_iff, Kind.isStatic]
  have hnoo : ∀ k ∈ List.replicate (op.nonDfPortCount dir)
      ((op.otherPortKind dir).getD .controlFlow), k.isStatic = false := by
    intro k hk
    obtain ⟨hn, rfl⟩ := List.mem_replicate.mp hk
    obtain ⟨o, hoo⟩ := Option.isSome_iff_exists.mp (ho hn)
    have := other_isOther op dir o hoo
    rw [hoo]; revert this; cases o <;> simp [Kind.isOther, Kind.isStatic]
  generalize List.replicate (op.nonDfPortCount dir)
      ((op.otherPortKind dir).getD .controlFlow) = os at *
  have hidx : ∀ (i : Nat) (ki : Kind), ((row.map Kind.value) ++ (op.staticPortKind dir).toList ++ os)[i]? = some ki →
      ki.isStatic = true → i = row.length := by
    intro i ki hi hk
    rw [List.append_assoc, List.getElem?_append] at hi
    split at hi
    · have := List.mem_of_getElem? hi
      simp at this
      obtain ⟨t, -, rfl⟩ := this
      simp [Kind.isStatic] at hk
    · rename_i hlt
      simp only [List.length_map, Nat.not_lt] at hlt hi
      rw [List.getElem?_append] at hi
      split at hi
      · rename_i h2
        cases hsk : op.staticPortKind dir with
        | none => simp [hsk] at h2
        | some k => simp [hsk] at h2; omega
      · have := hnoo _ (List.mem_of_getElem? hi)
        simp [this] at hk
  refine ⟨?_, fun i j ki kj hi hj hki hkj => (hidx i ki hi hki).trans (hidx j kj hj hkj).symm⟩
  unfold Op.staticPort
  cases hsk : op.staticPortKind dir with
  | none =>
    simp only [Option.toList_none, List.append_nil]
    rw [List.findIdx?_eq_none_iff.mpr]
    intro x hx
    rcases List.mem_append.mp hx with hx | hx
    · simp at hx; obtain ⟨t, -, rfl⟩ := hx; rfl
    · exact hnoo x hx
  | some k =>
    have := static_isStatic op dir k hsk
    simp only [hv, Run.map, Option.toList_some, List.append_assoc]
    rw [List.findIdx?_append, hnov]
    simp [List.findIdx?_cons, this]

/-- C10 (order port): the order or control-flow port is the first port with such a kind. -/
theorem C10_other_port (op : Op) (dir : Dir) (h : op.tagOk = true) :
    op.otherPort dir = .ok ((op.ports dir).findIdx? Kind.isOther) := by
  obtain ⟨s, hs, hp, ho⟩ := ports_eq op dir h
  have hv : op.valuePortCount dir = .ok (sigRow (s.getD ⟨[], []⟩) dir).length := by
    cases s <;> cases dir <;> simp [Op.valuePortCount, hs, sigRow]
  have hout : dir = .outgoing → (op.otherPortKind dir).isSome = true →
      op.staticPortKind dir = none := by
    rintro rfl
    cases op <;> simp [Op.otherPortKind, Op.otherOutput, Op.staticPortKind, Op.staticOutput]
  rw [hp]
  generalize sigRow (s.getD ⟨[], []⟩) dir = row at *
  have hnov : (row.map Kind.value).findIdx? Kind.isOther = none := by
    simp [List.findIdx?_eq_none_iff, Kind.isOther]
  have hnos : ((op.staticPortKind dir).toList).findIdx? Kind.isOther = none := by
    cases hsk : op.staticPortKind dir with
    | none => rfl
    | some k =>
      have := static_isStatic op dir k hsk
      revert this; cases k <;> simp [Kind.isStatic, Kind.isOther, List.findIdx?_cons]
  unfold Op.otherPort
  simp only [hv]
  rw [List.findIdx?_append, List.findIdx?_append, hnov, hnos]
  by_cases hn : op.nonDfPortCount dir = 0
  · simp [hn]
  · obtain ⟨o, hoo⟩ := Option.isSome_iff_exists.mp (ho hn)
    have hoth := other_isOther op dir o hoo
    obtain ⟨n, hn'⟩ := Nat.exists_eq_succ_of_ne_zero hn
    have hstat : (if dir = .incoming ∧ OpTag.isSuperset .staticInput op.opTag = true then 1 else 0)
        = (op.staticPortKind dir).toList.length := by
      cases dir with
      | incoming =>
        rw [tag_static]
        cases op.staticPortKind .incoming <;> simp
      | outgoing =>
        rw [hout rfl (by simp [hoo])]; simp
    simp only [hstat, hn', hoo, List.replicate_succ, List.findIdx?_cons, hoth]
    simp [hoth]

/-- C10: the port a `Call`, `LoadConstant` or `LoadFunction` reports for its static input is the
static port of the operation. -/
theorem C10_own_static_port (op : Op) :
    op.ownStaticPort.isSome = (op.staticPortKind .incoming).isSome ∧
    (∀ p, op.ownStaticPort = some p → op.staticPort .incoming = .ok (some p)) := by
  cases op <;>
    simp [Op.ownStaticPort, Op.staticPortKind, Op.staticInput, Op.staticPort, Op.valuePortCount,
      Op.dataflowSignature, Run.map, sigRow]

/-- C10 (finding): a `Tag` operation whose tag is not a variant makes every port query panic. -/
theorem C10_invalid_tag_panics (op : Op) (dir : Dir) (h : op.tagOk = false) :
    op.portCount dir = .panic ∧ (∀ i, op.portKind dir i = .panic) ∧ op.otherPort dir = .panic := by
  cases op <;> simp [Op.tagOk] at h
  rename_i k vs
  have hv : vs[k]? = none := by simpa using h
  have hd : (Op.tag k vs).dataflowSignature = .panic := by simp [Op.dataflowSignature, hv]
  simp [Op.portCount, Op.portKind, Op.otherPort, Op.valuePortCount, hd, Run.map]

/-- C10 (finding): asking for the kind of a port that does not exist gives the order or
control-flow kind whenever the operation has one, instead of nothing. -/
theorem C10_out_of_range_kind (op : Op) (dir : Dir) (h : op.tagOk = true) (idx : Nat)
    (hi : (op.ports dir).length ≤ idx) :
    op.portKind dir idx = .ok (op.otherPortKind dir) := by
  obtain ⟨s, hs, hp, ho⟩ := ports_eq op dir h
  rw [hp] at hi
  unfold Op.portKind
  rw [hs]
  simp only []
  generalize sigRow (s.getD ⟨[], []⟩) dir = row at *
  simp only [List.length_append, List.length_map] at hi
  rw [if_neg (by omega), if_neg]
  rintro ⟨rfl, h2⟩
  obtain ⟨k, hk⟩ := Option.isSome_iff_exists.mp h2
  simp [hk] at hi
  omega

/-- C10 (finding): for example an exit block has no outgoing port, yet every offset has a kind. -/
theorem C10_out_of_range_refuted :
    ∃ (op : Op) (dir : Dir) (idx : Nat), op.tagOk = true ∧ op.portCount dir = .ok 0 ∧
      op.portKind dir idx = .ok (some .controlFlow) :=
  ⟨.exitBlock [], .outgoing, 0, rfl, rfl, rfl⟩

/-! ## Non-vacuity -/

example : let op := Op.call ⟨[], ⟨[.sumUnit 2, .sumUnit 1], []⟩⟩ [] ⟨[.sumUnit 2, .sumUnit 1], []⟩
    op.tagOk = true ∧ (op.ports .incoming).length = 4 ∧
      op.staticPort .incoming = .ok (some 2) ∧ op.otherPort .incoming = .ok (some 3) := by
  refine ⟨rfl, rfl, rfl, ?_⟩
  decide +kernel

example : (Op.tag 1 [[], [.sumUnit 2]]).tagOk = true ∧ (Op.tag 2 [[], [.sumUnit 2]]).tagOk = false :=
  ⟨rfl, rfl⟩

end Verif.Ops
