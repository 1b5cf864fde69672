import Verif.Builder.WireUp
import Verif.Validate.Props

/-!
# C70: wires between graphs

A wire may come from outside of the graph of the node that uses it.
-/
namespace Verif.Builder

open Verif.Graph Verif.Ops Verif.Validate Verif.Dataflow Verif.Patch Verif.Passes

variable {Meta : Type} {h : Hugr Ops.Op Meta}

/-- A Hugr that is being built: what is there fits together, but links may be missing. -/
structure Fits (h : Hugr Ops.Op Meta) : Prop where
  tree : IsTree h
  tags : ∀ n, h.live n = true → (h.ops n).tagOk = true
  ports : ∀ n, h.live n = true → h.ins n = ((h.ops n).ports .incoming).length ∧
    h.outs n = ((h.ops n).ports .outgoing).length
  contains : ∀ n p, h.hier.parent n = some p → MayContain (h.ops p) (h.ops n)

/-- The kind of the port a link comes from. -/
def fromKind (h : Hugr Ops.Op Meta) (l : Link) : Option Kind := ((h.ops l.src).ports .outgoing)[l.srcPort]?
/-- The kind of the port a link goes to. -/
def toKind (h : Hugr Ops.Op Meta) (l : Link) : Option Kind := ((h.ops l.dst).ports .incoming)[l.dstPort]?

/-! ## Lemmas -/

theorem value_child {P c : Ops.Op} {t : Types.Ty} (hm : MayContain P c) (hv : .value t ∈ c.ports .outgoing) :
    (body P).isSome = true ∧ DataflowChild c := by
  cases P <;> cases c <;> simp_all [MayContain, Op.ports, body, DataflowChild]

theorem child_of_body {P c : Ops.Op} (hb : (body P).isSome = true) (hm : MayContain P c) : DataflowChild c := by
  cases P <;> simp_all [MayContain, body]

theorem child_order {c : Ops.Op} {t : Types.Ty} (hc : DataflowChild c) (hv : .value t ∈ c.ports .outgoing) :
    .stateOrder ∈ c.ports .outgoing ∧ OpTag.isSuperset .controlFlowChild c.opTag = false := by
  cases c <;> simp only [DataflowChild] at hc <;> simp [Op.ports] at hv ⊢ <;> simp only [Op.opTag] <;> decide

theorem container_order {a c : Ops.Op} (ha : DataflowChild a) (hc : MayContain a c) :
    .stateOrder ∈ a.ports .incoming ∧ OpTag.isSuperset .controlFlowChild a.opTag = false := by
  cases a <;> simp only [DataflowChild] at ha <;> simp [MayContain, body, Op.ports] at hc ⊢ <;> simp only [Op.opTag] <;>
    decide

theorem finishWire_ok (hf : Fits h) {l : Link} {L : List Link} (hs : h.live l.src = true) (hd : h.live l.dst = true)
    (h1 : (fromKind h l).isSome = true) (h2 : (toKind h l).isSome = true) :
    finishWire { h with links := L } l = .ok { h with links := L ++ [l] } := by
  obtain ⟨k1, h1⟩ := Option.isSome_iff_exists.1 h1
  obtain ⟨k2, h2⟩ := Option.isSome_iff_exists.1 h2
  have l1 := (List.getElem?_eq_some_iff.1 h1).1
  have l2 := (List.getElem?_eq_some_iff.1 h2).1
  unfold finishWire Hugr.connect
  have := hf.ports _ hs
  have := hf.ports _ hd
  rw [if_pos (by simp only [hs, hd, Bool.true_and, Bool.and_true, Bool.and_eq_true, decide_eq_true_eq]; omega)]
  simp only
  rw [C10_port_kind _ _ (hf.tags _ hd) _ l2]
  unfold toKind at h2
  rw [h2]

theorem addOtherEdge_ok (hf : Fits h) {s a : Nat} (hs : h.live s = true) (ha : h.live a = true)
    (h1 : .stateOrder ∈ (h.ops s).ports .outgoing) (h2 : .stateOrder ∈ (h.ops a).ports .incoming) :
    ∃ o : Link, o.src = s ∧ o.dst = a ∧ fromKind h o = some .stateOrder ∧ toKind h o = some .stateOrder ∧
      addOtherEdge h s a = .ok { h with links := h.links ++ [o] } := by
  obtain ⟨i, hi, ki⟩ := other_order (hf.tags _ hs) h1
  obtain ⟨j, hj, kj⟩ := other_order (hf.tags _ ha) h2
  refine ⟨⟨s, i, a, j⟩, rfl, rfl, ki, kj, ?_⟩
  have l1 := (List.getElem?_eq_some_iff.1 ki).1
  have l2 := (List.getElem?_eq_some_iff.1 kj).1
  unfold addOtherEdge
  rw [hi, hj]
  simp only [Hugr.connect]
  have := hf.ports _ hs
  have := hf.ports _ ha
  rw [if_pos (by simp only [hs, ha, Bool.true_and, Bool.and_true, Bool.and_eq_true, decide_eq_true_eq]; omega)]
  rfl

theorem wireUp_value (hf : Fits h) {l : Link} {t : Types.Ty} (hs : h.live l.src = true)
    (hk : fromKind h l = some (.value t)) (hne : h.hier.parent l.src ≠ h.hier.parent l.dst) :
    wireUp h l = wireNonLocal h l t := by
  have l1 := (List.getElem?_eq_some_iff.1 hk).1
  unfold wireUp
  rw [C10_port_kind _ _ (hf.tags _ hs) _ l1]
  unfold fromKind at hk
  rw [hk]
  simp only
  rw [if_pos (by rw [Validate.getParent_eq hf.tree, Validate.getParent_eq hf.tree]; exact hne)]

/-! ## Theorems -/

/-- A copyable value is used inside a sibling of the node it comes from. The wire is connected, and the sibling is ordered
after the node it comes from: such a link may be in a valid Hugr. -/
theorem C70_wire_inside (hf : Fits h) {l : Link} {t : Types.Ty} {p q a : Nat} (hk : fromKind h l = some (.value t))
    (hc : t.copyable = true) (hd : (toKind h l).isSome = true) (hp : h.hier.parent l.src = some p)
    (hq : h.hier.parent l.dst = some q) (ha : Above h.hier.parent q a) (hap : h.hier.parent a = some p) :
    ∃ o : Link, wireUp h l = .ok { h with links := h.links ++ [o, l] } ∧ o.src = l.src ∧ o.dst = a ∧
      fromKind h o = some .stateOrder ∧ toKind h o = some .stateOrder ∧
      EdgeOk { h with links := h.links ++ [o, l] } l (.value t) := by
  have ht := hf.tree
  have hs := (ht.parent_live _ _ hp).1
  have hpq : p ≠ q := by rintro rfl; exact ht.acyclic _ _ hap ha
  have hal := (ht.parent_live _ _ hap).1
  have hdl := (ht.parent_live _ _ hq).1
  have hm : .value t ∈ (h.ops l.src).ports .outgoing := List.mem_of_getElem? hk
  obtain ⟨hb, hsc⟩ := value_child (hf.contains _ _ hp) hm
  have hac := child_of_body hb (hf.contains _ _ hap)
  have hcont : ∃ c, MayContain (h.ops a) c := by
    by_cases e : q = a
    · subst e; exact ⟨_, hf.contains _ _ hq⟩
    · obtain ⟨c, -, hca⟩ := ha.last e
      exact ⟨_, hf.contains _ _ hca⟩
  obtain ⟨c, hcc⟩ := hcont
  obtain ⟨o1, o2⟩ := child_order hsc hm
  obtain ⟨o3, o4⟩ := container_order hac hcc
  obtain ⟨o, hos, hoa, hok, hok', ho⟩ := addOtherEdge_ok hf hs hal o1 o3
  refine ⟨o, ?_, hos, hoa, hok, hok', ?_⟩
  · rw [wireUp_value hf hs hk (by rw [hp, hq]; simp [hpq])]
    unfold wireNonLocal
    rw [if_neg (by simp [hc]), if_neg (by simp [Validate.getParent_eq ht, hp]), srcSibling_sibling ht hp hq ha hap]
    simp only
    rw [if_pos (by simp [o2, o4]), ho]
    simp only [Built.bind]
    rw [finishWire_ok hf hs hdl (by simp [hk]) hd]
    simp
  · exact ⟨p, hp, .inr ⟨q, a, hq, ha, .inr ⟨⟨t, rfl, hc⟩, .inl ⟨hap, o, by simp, hos, hoa, hok⟩⟩⟩⟩

/-- A copyable value is used inside a block other than that it comes from, of the same control-flow graph. The wire is
connected; such a link may be in a valid Hugr exactly if the block it comes from dominates the block it goes to. -/
theorem C70_wire_block (hf : Fits h) {l : Link} {t : Types.Ty} {p q a g : Nat} {sig : Types.Signature} {entry : Nat}
    {rest : List Nat} (hk : fromKind h l = some (.value t)) (hc : t.copyable = true) (hd : (toKind h l).isSome = true)
    (hp : h.hier.parent l.src = some p) (hq : h.hier.parent l.dst = some q) (ha : Above h.hier.parent q a)
    (hg : h.hier.parent p = some g) (hag : h.hier.parent a = some g) (hap : a ≠ p) (hcfg : h.ops g = .cfg sig)
    (hch : h.children g = entry :: rest) :
    wireUp h l = .ok { h with links := h.links ++ [l] } ∧
      (EdgeOk { h with links := h.links ++ [l] } l (.value t) ↔ Dominates (RegionEdge h g) entry p a) := by
  have ht := hf.tree
  have hs := (ht.parent_live _ _ hp).1
  have hdl := (ht.parent_live _ _ hq).1
  have huniq : ∀ b, Above h.hier.parent q b → h.hier.parent b = some g → b = a := fun b h1 h2 =>
    same_child ht h1 ha h2 hag
  have hnp : ∀ b, Above h.hier.parent q b → b ≠ p := by
    rintro b hb rfl
    exact hap (huniq _ hb hg).symm
  have hpq : p ≠ q := fun e => hnp q (.refl _) e.symm
  have hcfgc : OpTag.isSuperset .controlFlowChild (h.ops a).opTag = true := by
    have hm := hf.contains _ _ hag
    rw [hcfg] at hm
    cases ho : h.ops a <;> simp [MayContain, ho] at hm <;> simp only [Op.opTag] <;> decide
  constructor
  · rw [wireUp_value hf hs hk (by rw [hp, hq]; simp [hpq])]
    unfold wireNonLocal
    rw [if_neg (by simp [hc]), if_neg (by simp [Validate.getParent_eq ht, hp]), srcSibling_uncle ht hp hq ha hg hag hap]
    simp only
    rw [if_neg (by simp [hcfgc])]
    exact finishWire_ok (L := h.links) hf hs hdl (by simp [hk]) hd
  · have hreg : RegionEdge { h with links := h.links ++ [l] } g = RegionEdge h g := by
      funext x y
      apply propext
      unfold RegionEdge
      constructor
      · rintro ⟨h1, h2, k, hm, h3, h4⟩
        refine ⟨h1, h2, k, ?_, h3, h4⟩
        rcases List.mem_append.1 hm with hm | hm
        · exact hm
        · simp only [List.mem_singleton] at hm
          subst hm
          subst h3
          have := (ht.child_iff _ _).1 h1
          rw [hp] at this
          cases this
          exact absurd (.refl _) (ht.acyclic _ _ hg)
      · rintro ⟨h1, h2, k, hm, h3, h4⟩
        exact ⟨h1, h2, k, List.mem_append_left _ hm, h3, h4⟩
    constructor
    · rintro ⟨p', hp', hd' | ⟨q', b, hq', hb, ⟨hst, -⟩ | ⟨-, ⟨hbp, -⟩ | ⟨g', sig', entry', rest', h1, h2, h3, h4, h5, h6⟩⟩⟩⟩
      · cases hp.symm.trans hp'
        cases hq.symm.trans hd'
        exact absurd rfl hpq
      · simp [Kind.isStatic] at hst
      · cases hp.symm.trans hp'
        cases hq.symm.trans hq'
        exact absurd rfl (hnp _ (Above.trans hb (.of_parent hbp)))
      · cases hp.symm.trans hp'
        cases hq.symm.trans hq'
        cases hg.symm.trans h2
        cases huniq _ hb h3
        cases hch.symm.trans h5
        rwa [hreg] at h6
    · intro hdom
      exact ⟨p, hp, .inr ⟨q, a, hq, ha, .inr ⟨⟨t, rfl, hc⟩, .inr ⟨g, sig, entry, rest, hap, hg, hag, hcfg, hch, by rwa [hreg]⟩⟩⟩⟩

/-- A wire is refused if it carries a value that cannot be copied to another graph, or if neither the graph it comes from
nor the graph around that one is around its target. -/
theorem C70_wire_error (hf : Fits h) {l : Link} {t : Types.Ty} {p q : Nat} (hk : fromKind h l = some (.value t))
    (hp : h.hier.parent l.src = some p) (hq : h.hier.parent l.dst = some q) (hpq : p ≠ q) :
    (wireUp h l = .error .nonCopyableIntergraph ↔ t.copyable = false) ∧
    (wireUp h l = .error .noRelationIntergraph ↔ t.copyable = true ∧
      ∀ a b, Above h.hier.parent q a → h.hier.parent a = some b → b ≠ p ∧ h.hier.parent p ≠ some b) := by
  have ht := hf.tree
  have hs := (ht.parent_live _ _ hp).1
  have fin : ∀ (g : Hugr Ops.Op Meta) l e, finishWire g l ≠ .error e := by
    intro g l e he
    unfold finishWire at he
    split at he
    · cases he
    · split at he <;> cases he
  have oth : ∀ s a e, addOtherEdge h s a ≠ .error e := by
    intro s a e he
    unfold addOtherEdge at he
    split at he
    · unfold ofOption at he; split at he <;> cases he
    · cases he
  rw [wireUp_value hf hs hk (by rw [hp, hq]; simp [hpq])]
  unfold wireNonLocal
  by_cases hc : t.copyable = true
  · rw [if_neg (by simp [hc]), if_neg (by simp [Validate.getParent_eq ht, hp])]
    by_cases hn : ∀ a b, Above h.hier.parent q a → h.hier.parent a = some b → b ≠ p ∧ h.hier.parent p ≠ some b
    · rw [srcSibling_none ht hp hq hn]
      simp [hc]
      exact hn
    · have hsome : ∃ a, srcSibling h l.src l.dst = some a := by
        simp only [not_forall] at hn
        obtain ⟨a, b, ha, hab, hb⟩ := hn
        by_cases h1 : ∃ a, Above h.hier.parent q a ∧ h.hier.parent a = some p
        · obtain ⟨a, h2, h3⟩ := h1
          exact ⟨a, srcSibling_sibling ht hp hq h2 h3⟩
        · have hbp : b ≠ p := by rintro rfl; exact h1 ⟨a, ha, hab⟩
          have hpb : h.hier.parent p = some b := by
            by_contra hne
            exact hb ⟨hbp, hne⟩
          refine ⟨a, srcSibling_uncle ht hp hq ha hpb hab ?_⟩
          rintro rfl
          obtain ⟨c, hc1, hc2⟩ := ha.last (fun e => hpq e.symm)
          exact h1 ⟨c, hc1, hc2⟩
      obtain ⟨a, ha⟩ := hsome
      have key : ∀ e, (match srcSibling h l.src l.dst with
          | none => (Built.error .noRelationIntergraph : Built (Hugr Ops.Op Meta))
          | some a =>
            if !OpTag.isSuperset .controlFlowChild (h.ops l.src).opTag && !OpTag.isSuperset .controlFlowChild (h.ops a).opTag then
              (addOtherEdge h l.src a).bind fun g => finishWire g l
            else finishWire h l) ≠ .error e := by
        intro e
        rw [ha]
        simp only
        split
        · cases ho : addOtherEdge h l.src a with
          | ok g => exact fin g l e
          | error e' => exact absurd ho (oth _ _ _)
          | panic => simp [Built.bind]
        · exact fin _ _ _
      refine ⟨⟨fun h' => absurd h' (key _), fun h' => by rw [hc] at h'; cases h'⟩, ⟨fun h' => absurd h' (key _), fun h' => absurd h'.2 hn⟩⟩
  · have hc' : t.copyable = false := by simpa using hc
    rw [if_pos (by simp [hc'])]
    simp [hc']

/-- A value is used in its own graph. The wire is refused exactly if the value cannot be copied and is used already. -/
theorem C70_wire_local (hf : Fits h) {l : Link} {t : Types.Ty} {p : Nat} (hk : fromKind h l = some (.value t))
    (hd : (toKind h l).isSome = true) (hp : h.hier.parent l.src = some p) (hq : h.hier.parent l.dst = some p) :
    wireUp h l = if t.copyable = false ∧ ∃ k ∈ h.links, k.src = l.src ∧ k.srcPort = l.srcPort then
      .error .noCopyLinear else .ok { h with links := h.links ++ [l] } := by
  have ht := hf.tree
  have hs := (ht.parent_live _ _ hp).1
  have hdl := (ht.parent_live _ _ hq).1
  have l1 := (List.getElem?_eq_some_iff.1 hk).1
  unfold wireUp
  rw [C10_port_kind _ _ (hf.tags _ hs) _ l1]
  have hk' := hk
  unfold fromKind at hk'
  rw [hk']
  simp only
  rw [if_neg (by rw [Validate.getParent_eq ht, Validate.getParent_eq ht, hp, hq]; simp), finishWire_ok (L := h.links) hf hs hdl (by simp [hk]) hd]
  have : (!t.copyable && !(h.linkedInputs l.src l.srcPort).isEmpty) = true ↔
      t.copyable = false ∧ ∃ k ∈ h.links, k.src = l.src ∧ k.srcPort = l.srcPort := by
    simp only [Bool.and_eq_true, Bool.not_eq_true', and_congr_right_iff]
    intro _
    unfold Hugr.linkedInputs
    rw [← Bool.not_eq_true, List.isEmpty_iff, List.map_eq_nil_iff, List.filter_eq_nil_iff]
    simp [Link.at]
  by_cases hx : t.copyable = false ∧ ∃ k ∈ h.links, k.src = l.src ∧ k.srcPort = l.srcPort
  · rw [if_pos (this.2 hx), if_pos hx]
  · rw [if_neg (fun h' => hx (this.1 h')), if_neg hx]

/-- A copyable value from inside one nested graph is used inside another, next to it. The wire is connected, and so is an
order from inside the first to the second. No valid Hugr has such links: this is an error that is not reported. -/
theorem C70_wire_next_accepted (hf : Fits h) {l : Link} {t : Types.Ty} {p q a g : Nat}
    (hk : fromKind h l = some (.value t)) (hc : t.copyable = true) (hd : (toKind h l).isSome = true)
    (hp : h.hier.parent l.src = some p) (hq : h.hier.parent l.dst = some q) (ha : Above h.hier.parent q a)
    (hg : h.hier.parent p = some g) (hag : h.hier.parent a = some g) (hap : a ≠ p) (hb : (body (h.ops g)).isSome = true) :
    ∃ o : Link, wireUp h l = .ok { h with links := h.links ++ [o, l] } ∧
      ¬ EdgeOk { h with links := h.links ++ [o, l] } l (.value t) ∧
      ¬ EdgeOk { h with links := h.links ++ [o, l] } o .stateOrder := by
  have ht := hf.tree
  have hs := (ht.parent_live _ _ hp).1
  have hal := (ht.parent_live _ _ hag).1
  have hdl := (ht.parent_live _ _ hq).1
  have hm : .value t ∈ (h.ops l.src).ports .outgoing := List.mem_of_getElem? hk
  have hnp : ∀ b, Above h.hier.parent q b → b ≠ p := by
    rintro b hb rfl
    exact hap (same_child ht ha hb hag hg)
  have hpq : p ≠ q := fun e => hnp q (.refl _) e.symm
  have hsc := (value_child (hf.contains _ _ hp) hm).2
  have hac := child_of_body hb (hf.contains _ _ hag)
  have hcont : ∃ c, MayContain (h.ops a) c := by
    by_cases e : q = a
    · subst e; exact ⟨_, hf.contains _ _ hq⟩
    · obtain ⟨c, -, hca⟩ := ha.last e
      exact ⟨_, hf.contains _ _ hca⟩
  obtain ⟨c, hcc⟩ := hcont
  obtain ⟨o1, o2⟩ := child_order hsc hm
  obtain ⟨o3, o4⟩ := container_order hac hcc
  obtain ⟨o, hos, hoa, hok, hok', ho⟩ := addOtherEdge_ok hf hs hal o1 o3
  refine ⟨o, ?_, ?_, ?_⟩
  · rw [wireUp_value hf hs hk (by rw [hp, hq]; simp [hpq])]
    unfold wireNonLocal
    rw [if_neg (by simp [hc]), if_neg (by simp [Validate.getParent_eq ht, hp]), srcSibling_uncle ht hp hq ha hg hag hap]
    simp only
    rw [if_pos (by simp [o2, o4]), ho]
    simp only [Built.bind]
    rw [finishWire_ok hf hs hdl (by simp [hk]) hd]
    simp
  · rintro ⟨p', hp', hd' | ⟨q', b, hq', hb', ⟨hst, -⟩ | ⟨-, ⟨hbp, -⟩ | ⟨g', sig', entry', rest', h1, h2, h3, h4, h5, h6⟩⟩⟩⟩
    · cases hp.symm.trans hp'
      cases hq.symm.trans hd'
      exact hpq rfl
    · simp [Kind.isStatic] at hst
    · cases hp.symm.trans hp'
      cases hq.symm.trans hq'
      exact hnp _ (Above.trans hb' (.of_parent hbp)) rfl
    · cases hp.symm.trans hp'
      cases hg.symm.trans h2
      have h4 : h.ops g = .cfg sig' := h4
      rw [h4] at hb
      simp [body] at hb
  · intro he
    obtain ⟨r, hr1, hr2⟩ := edgeOk_order he
    have hr1 : h.hier.parent o.src = some r := hr1
    have hr2 : h.hier.parent o.dst = some r := hr2
    rw [hos, hp] at hr1
    rw [hoa, hag] at hr2
    cases hr1; cases hr2
    exact ht.acyclic _ _ hg (.refl _)

/-- A copyable value of one case of a conditional is used in another case: this panics. -/
theorem C70_wire_case_panics (hf : Fits h) {l : Link} {t : Types.Ty} {p q a g : Nat}
    (hk : fromKind h l = some (.value t)) (hc : t.copyable = true) (hp : h.hier.parent l.src = some p)
    (hq : h.hier.parent l.dst = some q) (ha : Above h.hier.parent q a) (hg : h.hier.parent p = some g)
    (hag : h.hier.parent a = some g) (hap : a ≠ p) {rows : List (List Types.Ty)} {ins outs : List Types.Ty}
    (hcond : h.ops g = .conditional rows ins outs) : wireUp h l = .panic := by
  have ht := hf.tree
  have hs := (ht.parent_live _ _ hp).1
  have hal := (ht.parent_live _ _ hag).1
  have hm : .value t ∈ (h.ops l.src).ports .outgoing := List.mem_of_getElem? hk
  have hnp : ∀ b, Above h.hier.parent q b → b ≠ p := by
    rintro b hb rfl
    exact hap (same_child ht ha hb hag hg)
  have hpq : p ≠ q := fun e => hnp q (.refl _) e.symm
  have hsc := (value_child (hf.contains _ _ hp) hm).2
  obtain ⟨-, o2⟩ := child_order hsc hm
  have hcase : ∃ sig, h.ops a = .case sig := by
    have := hf.contains _ _ hag
    rw [hcond] at this
    cases ho : h.ops a <;> simp [MayContain, ho] at this
    exact ⟨_, rfl⟩
  obtain ⟨sig, ho⟩ := hcase
  rw [wireUp_value hf hs hk (by rw [hp, hq]; simp [hpq])]
  unfold wireNonLocal
  rw [if_neg (by simp [hc]), if_neg (by simp [Validate.getParent_eq ht, hp]), srcSibling_uncle ht hp hq ha hg hag hap]
  simp only
  rw [if_pos (by rw [o2, ho]; simp only [Op.opTag]; decide)]
  have : addOtherEdge h l.src a = .panic := by
    unfold addOtherEdge
    rw [C10_other_port _ _ (hf.tags _ hal), ho]
    simp [Op.ports]
  rw [this]
  rfl

/-! ## Examples -/

theorem fits_of_valid {C : Context} (ht : IsTree h) (hv : Valid C h) : Fits h :=
  ⟨ht, hv.tags, hv.ports, hv.contains⟩

/-- A function with two nested graphs (4, 7) next to each other and a conditional (11) with two cases (12, 16). -/
def wiresHistory : List (Cmd Ops.Op String) :=
  [ .addNodeWithParent 1 0 (.funcDefn "main" ⟨[], ⟨[bool], []⟩⟩),
    .addNodeWithParent 2 1 (.input [bool]), .addNodeWithParent 3 1 (.output []),
    .addNodeWithParent 4 1 (.dfg ⟨[bool], []⟩), .addNodeWithParent 5 4 (.input [bool]), .addNodeWithParent 6 4 (.output []),
    .addNodeWithParent 7 1 (.dfg ⟨[bool], []⟩), .addNodeWithParent 8 7 (.input [bool]), .addNodeWithParent 9 7 (.output []),
    .addNodeWithParent 10 7 (.extensionOp "q" "cx" [] ⟨[bool], []⟩),
    .addNodeWithParent 11 1 (.conditional [[], []] [] []),
    .addNodeWithParent 12 11 (.case ⟨[], []⟩), .addNodeWithParent 13 12 (.input []), .addNodeWithParent 14 12 (.output []),
    .addNodeWithParent 15 12 (.tag 0 [[], []]),
    .addNodeWithParent 16 11 (.case ⟨[], []⟩), .addNodeWithParent 17 16 (.input []), .addNodeWithParent 18 16 (.output []),
    .addNodeWithParent 19 16 (.extensionOp "q" "cx" [] ⟨[bool], []⟩),
    .connect ⟨2, 0, 4, 0⟩, .connect ⟨2, 0, 7, 0⟩, .connect ⟨8, 0, 10, 0⟩, .connect ⟨2, 0, 11, 0⟩, .connect ⟨2, 0, 19, 0⟩,
    .connect ⟨2, 1, 11, 1⟩ ]

set_option maxRecDepth 4000 in
theorem wires_fits : Fits (built wiresHistory) := by
  obtain ⟨h1, h2⟩ := built_ok wiresHistory (by decide +kernel) (by decide +kernel)
  exact fits_of_valid h1 ((C47_validate_iff_partial exContext _ h1 h2).1 (by decide +kernel))

set_option maxRecDepth 4000 in
theorem valid_fits : Fits (built validHistory) := by
  obtain ⟨h1, h2⟩ := built_ok validHistory (by decide +kernel) (by decide +kernel)
  exact fits_of_valid h1 ((C47_validate_iff_partial exContext _ h1 h2).1 (by decide +kernel))

set_option maxRecDepth 4000 in
/-- The hypotheses of `C70_wire_inside` are met. -/
example : ∃ o : Link, wireUp (built wiresHistory) ⟨2, 0, 10, 0⟩ =
    .ok { (built wiresHistory) with links := (built wiresHistory).links ++ [o, ⟨2, 0, 10, 0⟩] } ∧ o.dst = 7 := by
  obtain ⟨o, h1, -, h2, -⟩ := C70_wire_inside wires_fits (l := ⟨2, 0, 10, 0⟩) (t := bool) (p := 1) (q := 7) (a := 7)
    (by rfl) (by rfl) (by rfl) (by rfl) (by rfl) (.refl _) (by rfl)
  exact ⟨o, h1, h2⟩

set_option maxRecDepth 4000 in
/-- The hypotheses of `C70_wire_block` are met. -/
example : wireUp (built validHistory) ⟨22, 0, 26, 1⟩ =
    .ok { (built validHistory) with links := (built validHistory).links ++ [⟨22, 0, 26, 1⟩] } :=
  (C70_wire_block valid_fits (l := ⟨22, 0, 26, 1⟩) (t := bool) (p := 16) (q := 18) (a := 18) (g := 15)
    (sig := ⟨[qubit], [qubit]⟩) (entry := 16) (rest := [17, 18]) (by rfl) (by rfl) (by rfl) (by rfl) (by rfl) (.refl _)
    (by rfl) (by rfl) (by decide) (by rfl) (by rfl)).1

set_option maxRecDepth 4000 in
/-- The hypotheses of `C70_wire_error` are met, and a wire is refused: the qubit (5, 0) cannot go to another graph. -/
example : wireUp (built validHistory) ⟨5, 0, 26, 0⟩ = .error .nonCopyableIntergraph :=
  (C70_wire_error valid_fits (l := ⟨5, 0, 26, 0⟩) (t := qubit) (p := 4) (q := 18) (by rfl) (by rfl) (by rfl)
    (by decide)).1.2 (by rfl)

set_option maxRecDepth 4000 in
/-- The hypotheses of `C70_wire_local` are met, and a wire is refused: the qubit (5, 0) is used already. -/
example : wireUp (built validHistory) ⟨5, 0, 6, 0⟩ = .error .noCopyLinear := by
  rw [C70_wire_local valid_fits (t := qubit) (p := 4) (by rfl) (by rfl) (by rfl) (by rfl), if_pos]
  exact ⟨by rfl, by decide +kernel⟩

set_option maxRecDepth 4000 in
/-- The hypotheses of `C70_wire_next_accepted` are met. -/
example : ∃ o : Link, wireUp (built wiresHistory) ⟨5, 0, 10, 0⟩ =
    .ok { (built wiresHistory) with links := (built wiresHistory).links ++ [o, ⟨5, 0, 10, 0⟩] } := by
  obtain ⟨o, h1, -⟩ := C70_wire_next_accepted wires_fits (l := ⟨5, 0, 10, 0⟩) (t := bool) (p := 4) (q := 7) (a := 7) (g := 1)
    (by rfl) (by rfl) (by rfl) (by rfl) (by rfl) (.refl _) (by rfl) (by rfl) (by decide) (by rfl)
  exact ⟨o, h1⟩

set_option maxRecDepth 4000 in
/-- The hypotheses of `C70_wire_case_panics` are met. -/
example : wireUp (built wiresHistory) ⟨15, 0, 19, 0⟩ = .panic :=
  C70_wire_case_panics wires_fits (l := ⟨15, 0, 19, 0⟩) (t := sumOf [[], []]) (p := 12) (q := 16) (a := 16) (g := 11)
    (by rfl) (by rfl) (by rfl) (by rfl) (.refl _) (by rfl) (by rfl) (by decide) (rows := [[], []]) (ins := []) (outs := [])
    (by rfl)

end Verif.Builder
