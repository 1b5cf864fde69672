import Verif.Patch.SiblingSpec
import Verif.Patch.SimpleReplaceProps

/-!
# Lemmas about the boundaries of subgraphs
-/
namespace Verif.Patch

open Verif.Graph Verif.Ops Verif.Passes Verif.Validate Verif.Dataflow

variable {Meta : Type} {C : Validate.Context} {h : Hugr Ops.Op Meta} {s : Subgraph} {p : Nat}

theorem mem_linkedIn' {n port m : Nat} : m ∈ linkedNodes h ⟨n, .incoming, port⟩ ↔
    ∃ l ∈ h.links, l.dst = n ∧ l.dstPort = port ∧ l.src = m := by
  simp only [linkedNodes, Hugr.linkedOutputs, List.mem_map, List.mem_filter, Bool.and_eq_true, decide_eq_true_eq]
  constructor
  · rintro ⟨_, ⟨l, ⟨hl, h1, h2⟩, rfl⟩, rfl⟩
    exact ⟨l, hl, h1, h2, rfl⟩
  · rintro ⟨l, hl, h1, h2, rfl⟩
    exact ⟨_, ⟨l, ⟨hl, h1, h2⟩, rfl⟩, rfl⟩

theorem mem_linkedOut' {n port m : Nat} : m ∈ linkedNodes h ⟨n, .outgoing, port⟩ ↔
    ∃ l ∈ h.links, l.src = n ∧ l.srcPort = port ∧ l.dst = m := by
  simp only [linkedNodes, Hugr.linkedInputs, List.mem_map, List.mem_filter, Bool.and_eq_true, decide_eq_true_eq]
  constructor
  · rintro ⟨_, ⟨l, ⟨hl, h1, h2⟩, rfl⟩, rfl⟩
    exact ⟨l, hl, h1, h2, rfl⟩
  · rintro ⟨l, hl, h1, h2, rfl⟩
    exact ⟨_, ⟨l, ⟨hl, h1, h2⟩, rfl⟩, rfl⟩

theorem outside_in {nodes : List Nat} {n port : Nat} : linkedOutside h nodes ⟨n, .incoming, port⟩ = true ↔
    ∃ l ∈ h.links, l.dst = n ∧ l.dstPort = port ∧ l.src ∉ nodes := by
  simp only [linkedOutside, List.any_eq_true, decide_eq_true_eq, mem_linkedIn']
  constructor
  · rintro ⟨_, ⟨l, hl, h1, h2, rfl⟩, hm⟩
    exact ⟨l, hl, h1, h2, hm⟩
  · rintro ⟨l, hl, h1, h2, hm⟩
    exact ⟨_, ⟨l, hl, h1, h2, rfl⟩, hm⟩

theorem outside_out {nodes : List Nat} {n port : Nat} : linkedOutside h nodes ⟨n, .outgoing, port⟩ = true ↔
    ∃ l ∈ h.links, l.src = n ∧ l.srcPort = port ∧ l.dst ∉ nodes := by
  simp only [linkedOutside, List.any_eq_true, decide_eq_true_eq, mem_linkedOut']
  constructor
  · rintro ⟨_, ⟨l, hl, h1, h2, rfl⟩, hm⟩
    exact ⟨l, hl, h1, h2, hm⟩
  · rintro ⟨l, hl, h1, h2, hm⟩
    exact ⟨_, ⟨l, hl, h1, h2, rfl⟩, hm⟩

theorem mem_nodeInputs {nodes : List Nat} {np : Nat × Nat} : np ∈ nodeInputs h nodes ↔ np.1 ∈ nodes ∧ np.2 < h.ins np.1 := by
  simp only [nodeInputs, List.mem_flatMap, List.mem_map, List.mem_range]
  constructor
  · rintro ⟨n, hn, q, hq, rfl⟩
    exact ⟨hn, hq⟩
  · rintro ⟨h1, h2⟩
    exact ⟨_, h1, _, h2, rfl⟩

theorem mem_nodeOutputs {nodes : List Nat} {np : Nat × Nat} :
    np ∈ nodeOutputs h nodes ↔ np.1 ∈ nodes ∧ np.2 < h.outs np.1 := by
  simp only [nodeOutputs, List.mem_flatMap, List.mem_map, List.mem_range]
  constructor
  · rintro ⟨n, hn, q, hq, rfl⟩
    exact ⟨hn, hq⟩
  · rintro ⟨h1, h2⟩
    exact ⟨_, h1, _, h2, rfl⟩

theorem getParent_eq (ht : IsTree h) (n : Nat) : h.getParent n = h.hier.parent n := by
  unfold Hugr.getParent
  split
  · rfl
  · rename_i hn
    cases hp : h.hier.parent n with
    | none => rfl
    | some q =>
      refine absurd ?_ hn
      have h1 := (ht.parent_live _ _ hp).1
      have h2 : n ≠ h.moduleRoot := by
        rintro rfl
        rw [ht.root_top] at hp; cases hp
      simp [h1, h2]

theorem portIs_iff {x : Run (Option Nat)} {q : Nat} : portIs x q = true ↔ x = .ok (some q) := by
  unfold portIs
  split
  · simp
  · rename_i hx
    simp only [Bool.false_eq_true, false_iff]
    intro e
    exact hx q e

/-- The operations of a dataflow region. -/
theorem flow_child (hv : Valid C h) (hp : (body (h.ops p)).isSome = true) {n : Nat} (hn : h.hier.parent n = some p) :
    DataflowChild (h.ops n) := by
  have hc := hv.contains _ _ hn
  unfold MayContain at hc
  cases hop : h.ops p <;> rw [hop] at hp hc <;> simp [body] at hp <;> exact hc.2

/-- The kinds of the ports of an operation of a dataflow region. -/
theorem flow_kinds {op : Ops.Op} (hd : DataflowChild op) {dir : Ops.Dir} {port : Nat} {kind : Kind}
    (hk : (op.ports dir)[port]? = some kind) : kind.isValue = true ∨ kind.isStatic = true ∨ kind = .stateOrder := by
  have hm := List.mem_of_getElem? hk
  cases op <;> simp only [DataflowChild] at hd <;> cases dir <;>
    simp only [Op.ports, List.mem_append, List.mem_cons, List.mem_map, List.not_mem_nil, or_false, List.mem_singleton] at hm
  all_goals first
    | (exfalso; exact hm)
    | (subst hm; simp [Kind.isValue, Kind.isStatic]; done)
    | skip
  all_goals first
    | (rcases hm with ⟨_, _, rfl⟩ | rfl | rfl <;> simp [Kind.isValue, Kind.isStatic]; done)
    | (rcases hm with ⟨_, _, rfl⟩ | rfl <;> simp [Kind.isValue, Kind.isStatic]; done)
    | (rcases hm with rfl | rfl <;> simp [Kind.isValue, Kind.isStatic]; done)
    | (rcases hm with (rfl | ⟨_, _, rfl⟩) | rfl <;> simp [Kind.isValue, Kind.isStatic]; done)

theorem isStatic_at {op : Ops.Op} (ht : op.tagOk = true) {dir : Ops.Dir} {port : Nat} :
    portIs (op.staticPort dir) port = true ↔ ∃ kind, (op.ports dir)[port]? = some kind ∧ kind.isStatic = true := by
  rw [portIs_iff]
  obtain ⟨h1, h2⟩ := C10_static_port op dir ht
  rw [h1]
  constructor
  · intro e
    cases e' : (op.ports dir).findIdx? Kind.isStatic with
    | none => rw [e'] at e; cases e
    | some q =>
      rw [e'] at e; cases e
      obtain ⟨hlt, hk, _⟩ := List.findIdx?_eq_some_iff_getElem.1 e'
      exact ⟨_, List.getElem?_eq_getElem hlt, hk⟩
  · rintro ⟨kind, hk, hs⟩
    cases e' : (op.ports dir).findIdx? Kind.isStatic with
    | none =>
      have := List.findIdx?_eq_none_iff.1 e' kind (List.mem_of_getElem? hk)
      rw [hs] at this; cases this
    | some q =>
      obtain ⟨hlt, hk', _⟩ := List.findIdx?_eq_some_iff_getElem.1 e'
      rw [h2 q port _ kind (List.getElem?_eq_getElem hlt) hk hk' hs]

/-- A linked port of a node of a dataflow region is a value port, or `is_non_value_edge` finds it. -/
theorem nonValue_iff {op : Ops.Op} (hd : DataflowChild op) (ht : op.tagOk = true) {dir : Ops.Dir} {port : Nat} {kind : Kind}
    (hk : (op.ports dir)[port]? = some kind) :
    (portIs (op.otherPort dir) port = true ∨ portIs (op.staticPort dir) port = true) ↔ kind.isValue = false := by
  rw [isStatic_at ht, portIs_iff]
  constructor
  · rintro (ho | ⟨k, h1, h2⟩)
    · rw [C10_other_port op dir ht] at ho
      simp only [Run.ok.injEq] at ho
      obtain ⟨hlt, hk', _⟩ := List.findIdx?_eq_some_iff_getElem.1 ho
      rw [List.getElem?_eq_getElem hlt] at hk
      cases hk
      cases hh : (op.ports dir)[port] <;> rw [hh] at hk' <;> simp [Kind.isOther] at hk' <;> rfl
    · rw [hk] at h1; cases h1
      cases kind <;> simp [Kind.isStatic] at h2 <;> rfl
  · intro hval
    rcases flow_kinds hd hk with h1 | h1 | rfl
    · rw [hval] at h1; cases h1
    · exact .inr ⟨kind, hk, h1⟩
    · left
      obtain ⟨h1, _, h3⟩ := otherPort_last ht (List.mem_of_getElem? hk) (.inr rfl)
      rw [h1, ((h3 port).1 hk).symm]

theorem isNonValueEdge_iff {q : AnyPort} : isNonValueEdge h q = true ↔ linkedNodes h q ≠ [] ∧
    (portIs ((h.ops q.node).otherPort q.dir) q.port = true ∨ portIs ((h.ops q.node).staticPort q.dir) q.port = true) := by
  unfold isNonValueEdge
  cases hl : linkedNodes h q <;> simp

/-- The type of a value port. -/
theorem ports_portType {n : Nat} (ht : (h.ops n).tagOk = true) {dir : Ops.Dir} {port : Nat} {t : Types.Ty}
    (hk : ((h.ops n).ports dir)[port]? = some (.value t)) : portType h n dir port = some t := by
  obtain ⟨sg, h1, h2, _⟩ := ports_eq (h.ops n) dir ht
  rw [h2, List.append_assoc] at hk
  have hsr : (sigRow (sg.getD ⟨[], []⟩) dir)[port]? = some t := by
    by_cases hlt : port < (sigRow (sg.getD ⟨[], []⟩) dir).length
    · rw [List.getElem?_append_left (by simpa using hlt), List.getElem?_map] at hk
      cases e : (sigRow (sg.getD ⟨[], []⟩) dir)[port]? with
      | none => rw [e] at hk; cases hk
      | some t' => rw [e] at hk; cases hk; rfl
    · rw [List.getElem?_append_right (by simpa using hlt)] at hk
      have hm := List.mem_of_getElem? hk
      rcases List.mem_append.1 hm with hm | hm
      · have hs : (h.ops n).staticPortKind dir = some (.value t) := by simpa using hm
        have := static_isStatic _ _ _ hs
        cases this
      · have hm' := List.eq_of_mem_replicate hm
        cases ho : (h.ops n).otherPortKind dir with
        | none => rw [ho] at hm'; cases hm'
        | some k =>
          rw [ho] at hm'
          have := other_isOther _ _ _ ho
          simp only [Option.getD_some] at hm'
          rw [← hm'] at this; cases this
  unfold portType
  rw [h1]
  cases sg with
  | none => cases dir <;> simp [sigRow] at hsr
  | some sig => cases dir <;> exact hsr

/-! ## Inputs with one source -/

theorem checkPart_ok {source : Nat × Nat} {part : List (Nat × Nat)}
    (hone : ∀ np ∈ part, ∃ x, singleLinkedOutput h np.1 np.2 = some x) :
    (checkPart h source part = .ok () ↔ ∀ np ∈ part, singleLinkedOutput h np.1 np.2 = some source) ∧
    checkPart h source part ≠ .panic := by
  induction part with
  | nil => simp [checkPart]
  | cons np part ih =>
    obtain ⟨x, hx⟩ := hone np (by simp)
    have ih := ih fun np' h' => hone np' (by simp [h'])
    simp only [checkPart, hx, List.forall_mem_cons]
    by_cases he : x = source
    · subst he
      rw [if_pos rfl]
      simp [ih]
    · rw [if_neg he]
      simp [he]

theorem checkParts_ok {inputs : List (List (Nat × Nat))}
    (hone : ∀ np ∈ inputs.flatten, ∃ x, singleLinkedOutput h np.1 np.2 = some x) :
    (checkParts h inputs = .ok () ↔ [] ∉ inputs ∧ ∀ part ∈ inputs, ∀ a ∈ part, ∀ b ∈ part,
      singleLinkedOutput h a.1 a.2 = singleLinkedOutput h b.1 b.2) ∧ checkParts h inputs ≠ .panic := by
  induction inputs with
  | nil => simp [checkParts]
  | cons part parts ih =>
    have ih := ih fun np' h' => hone np' (by rw [List.flatten_cons]; exact List.mem_append_right _ h')
    cases part with
    | nil => simp [checkParts]
    | cons np part =>
      have hone' : ∀ np' ∈ np :: part, ∃ x, singleLinkedOutput h np'.1 np'.2 = some x := fun np' h' =>
        hone np' (by rw [List.flatten_cons]; exact List.mem_append_left _ h')
      obtain ⟨x, hx⟩ := hone' np (by simp)
      obtain ⟨c1, c2⟩ := checkPart_ok (source := x) hone'
      have hsame : (∀ np' ∈ np :: part, singleLinkedOutput h np'.1 np'.2 = some x) ↔
          ∀ a ∈ np :: part, ∀ b ∈ np :: part, singleLinkedOutput h a.1 a.2 = singleLinkedOutput h b.1 b.2 := by
        constructor
        · intro hs a ha b hb
          rw [hs a ha, hs b hb]
        · intro hs a ha
          rw [hs a ha np (by simp), hx]
      simp only [checkParts, hx, List.forall_mem_cons (a := np :: part), List.mem_cons (a := ([] : List (Nat × Nat)))]
      cases hc : checkPart h x (np :: part) with
      | ok u =>
        have := hsame.1 (c1.1 hc)
        simp only [ih, reduceCtorEq, false_or]
        exact ⟨⟨fun hh => ⟨hh.1, this, hh.2⟩, fun hh => ⟨hh.1, hh.2.2⟩⟩, ih.2⟩
      | err e =>
        simp only [reduceCtorEq, false_iff, ne_eq, not_false_eq_true, and_true, false_or]
        rintro ⟨_, hh, _⟩
        have := c1.2 (hsame.2 hh)
        rw [hc] at this; cases this
      | panic => exact absurd hc c2

end Verif.Patch
