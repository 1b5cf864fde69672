import Verif.Dataflow.ConstFold
import Verif.Dataflow.SimLemmas
import Verif.Graph.Props
import Verif.Graph.LinkProps

/-!
# What breaking wires does to the Hugr
-/
namespace Verif.Dataflow

open Verif.Graph Verif.Ops Verif.Passes Verif.Validate

variable {Meta E W : Type}

/-- The new wires. -/
def replacedOf (x : Break E × Nat × Nat) : Replaced E := ⟨x.1.node, x.1.port, x.1.val.1, x.2.1, x.2.2⟩

/-- The new nodes. -/
def newNodes (B : List (Break E × Nat × Nat)) : List Nat := B.flatMap fun x => [x.2.1, x.2.2]

/-- `h'` is `h` after breaking the wires `B`. -/
structure Folded (h : Hugr Ops.Op Meta) (B : List (Break E × Nat × Nat)) (h' : Hugr Ops.Op Meta) :
    Prop where
  tree : IsTree h'
  live : ∀ n, h'.live n = true ↔ h.live n = true ∨ n ∈ newNodes B
  fresh : ∀ n ∈ newNodes B, h.live n = false
  nodup : (newNodes B).Nodup
  ops : ∀ n, n ∉ newNodes B → h'.ops n = h.ops n
  numPorts : ∀ n, h.live n = true → h'.ins n = h.ins n ∧ h'.outs n = h.outs n
  newPorts : ∀ n ∈ newNodes B, h'.ins n = ((h'.ops n).ports .incoming).length ∧
    h'.outs n = ((h'.ops n).ports .outgoing).length
  parent : ∀ n, h.live n = true → h'.hier.parent n = h.hier.parent n
  children : ∀ n, h.live n = true → ∃ new, h'.children n = h.children n ++ new ∧ ∀ c ∈ new, c ∈ newNodes B
  noChildren : ∀ n ∈ newNodes B, h'.children n = []
  roots : h'.moduleRoot = h.moduleRoot ∧ h'.entrypoint = h.entrypoint
  kept : ∀ l ∈ h.links, l ∈ h'.links ∨ ∃ x ∈ B, x.1.node = l.dst ∧ x.1.port = l.dstPort
  links : ∀ l ∈ h'.links, (l ∈ h.links ∧ ∀ x ∈ B, ¬ (x.1.node = l.dst ∧ x.1.port = l.dstPort)) ∨ ∃ x ∈ B, l = ⟨x.2.1, 0, x.2.2, 0⟩ ∨
    l = ⟨x.2.2, 0, x.1.node, x.1.port⟩
  new : ∀ x ∈ B, h'.ops x.2.1 = .const x.1.val.2 ∧ h'.ops x.2.2 = .loadConstant x.1.val.2 ∧
    ⟨x.2.1, 0, x.2.2, 0⟩ ∈ h'.links ∧ ⟨x.2.2, 0, x.1.node, x.1.port⟩ ∈ h'.links ∧
    h'.hier.parent x.2.2 = h.hier.parent x.1.node ∧ h'.hier.parent x.2.1 = h.hier.parent x.1.node

/-- One wire. -/
theorem breakWire_folded {h h' : Hugr Ops.Op Meta} (ht : IsTree h) {b : Break E} {cst lcst : Nat}
    (hb : breakWire h b cst lcst = some h') : Folded h [(b, cst, lcst)] h' := by
  unfold breakWire at hb
  split at hb
  · cases hb
  rename_i parent hpar
  have hpar' : h.live b.node = true ∧ h.hier.parent b.node = some parent := by
    unfold Hugr.getParent at hpar
    split at hpar
    · rename_i hc
      simp only [Bool.and_eq_true] at hc
      exact ⟨hc.1, hpar⟩
    · cases hpar
  obtain ⟨hbl, hpar'⟩ := hpar'
  have hpl := (ht.parent_live _ _ hpar').2
  split at hb
  · cases hb
  rename_i h1 hadd1
  have a1 := C20_add_node _ h h1 ht cst parent _ hpl hadd1
  have ht1 := addNodeWithParent_tree ht hpl hadd1
  split at hb
  · cases hb
  rename_i h2 hadd2
  have hpl1 : h1.live parent = true := by rw [a1.live]; simp [hpl]
  have a2 := C20_add_node _ h1 h2 ht1 lcst parent _ hpl1 hadd2
  have ht2 := addNodeWithParent_tree ht1 hpl1 hadd2
  have hne : lcst ≠ cst := by
    intro he
    have := a2.fresh
    rw [a1.live, he] at this
    simp at this
  have hlf : h.live lcst = false := by
    have := a2.fresh
    rw [a1.live] at this
    simpa [hne] using this
  split at hb
  · cases hb
  rename_i h3 hc3
  split at hb
  · cases hb
  rename_i h4 hd4
  unfold Hugr.connect at hc3 hb
  unfold Hugr.disconnect at hd4
  split at hc3
  case isFalse => cases hc3
  cases hc3
  split at hd4
  case isFalse => cases hd4
  cases hd4
  split at hb
  case isFalse => cases hb
  cases hb
  have hlive : ∀ n, h2.live n = true ↔ h.live n = true ∨ n = cst ∨ n = lcst := by
    intro n
    rw [a2.live, a1.live]
    simp only [Bool.or_eq_true, decide_eq_true_eq]
    tauto
  have hold : ∀ n, h.live n = true → n ≠ cst ∧ n ≠ lcst := by
    intro n hn
    constructor
    · rintro rfl; rw [a1.fresh] at hn; cases hn
    · rintro rfl; rw [hlf] at hn; cases hn
  have hcst := (a2.others cst hne.symm)
  have hcp : cst ≠ parent := (hold parent hpl).1.symm
  have hlp : lcst ≠ parent := (hold parent hpl).2.symm
  have hmemnew : ∀ n, n ∈ newNodes [(b, cst, lcst)] ↔ n = cst ∨ n = lcst := by
    intro n; simp [newNodes]
  have hports : ∀ n, h2.ops n = .const b.val.2 ∨ h2.ops n = .loadConstant b.val.2 →
      opsInfo.toOpInfo.inputs (h2.ops n) = ((h2.ops n).ports .incoming).length ∧
      opsInfo.toOpInfo.outputs (h2.ops n) = ((h2.ops n).ports .outgoing).length := by
    rintro n (hn | hn) <;> rw [hn] <;> exact ⟨rfl, rfl⟩
  refine ⟨?_, ?_, ?_, ?_, ?_, ?_, ?_, ?_, ?_, ?_, ?_, ?_, ?_, ?_⟩
  · exact ht2.congr rfl rfl rfl ht2.entry_live rfl
  · intro n; rw [hmemnew]; exact hlive n
  · intro n hn
    rw [hmemnew] at hn
    rcases hn with rfl | rfl
    · exact a1.fresh
    · exact hlf
  · simp [newNodes, hne.symm]
  · intro n hn
    rw [hmemnew, not_or] at hn
    exact ((a2.others n hn.2).1).trans (a1.others n hn.1).1
  · intro n hn
    obtain ⟨_, p1, p2, _⟩ := a2.others n (hold n hn).2
    obtain ⟨_, q1, q2, _⟩ := a1.others n (hold n hn).1
    exact ⟨p1.trans q1, p2.trans q2⟩
  · intro n hn
    rw [hmemnew] at hn
    rcases hn with rfl | rfl
    · obtain ⟨p0, p1, p2, _⟩ := hcst
      have hop : h2.ops n = .const b.val.2 := p0.trans a1.operation
      obtain ⟨e1, e2⟩ := hports n (.inl hop)
      constructor
      · exact (p1.trans a1.ports.1).trans ((congrArg _ hop.symm).trans e1)
      · exact (p2.trans a1.ports.2).trans ((congrArg _ hop.symm).trans e2)
    · obtain ⟨e1, e2⟩ := hports n (.inr a2.operation)
      constructor
      · exact a2.ports.1.trans ((congrArg _ a2.operation.symm).trans e1)
      · exact a2.ports.2.trans ((congrArg _ a2.operation.symm).trans e2)
  · intro n hn
    exact ((a2.others n (hold n hn).2).2.2.2.1).trans (a1.others n (hold n hn).1).2.2.2.1
  · intro n hn
    by_cases hnp : n = parent
    · subst hnp
      refine ⟨[cst, lcst], ?_, by simp [newNodes]⟩
      have := a2.target
      rw [a1.target, List.append_assoc] at this
      exact this
    · refine ⟨[], ?_, by simp⟩
      simp only [List.append_nil]
      exact ((a2.others n (hold n hn).2).2.2.2.2 hnp).trans ((a1.others n (hold n hn).1).2.2.2.2 hnp)
  · intro n hn
    rw [hmemnew] at hn
    rcases hn with rfl | rfl
    · exact (hcst.2.2.2.2 hcp).trans a1.no_children
    · exact a2.no_children
  · exact ⟨a2.roots.1.trans a1.roots.1, a2.roots.2.trans a1.roots.2⟩
  · intro l hl
    by_cases hat : b.node = l.dst ∧ b.port = l.dstPort
    · exact .inr ⟨(b, cst, lcst), by simp, hat⟩
    · refine .inl ?_
      simp only [List.mem_append, List.mem_filter, Link.at, Bool.not_eq_true', Bool.and_eq_false_iff,
        beq_eq_false_iff_ne]
      refine .inl ⟨.inl (by rw [a2.links, a1.links]; exact hl), ?_⟩
      by_contra hc
      simp only [not_or, ne_eq, not_not] at hc
      exact hat ⟨hc.1.symm, hc.2.symm⟩
  · intro l hl
    simp only [List.mem_append, List.mem_filter, List.mem_singleton] at hl
    rcases hl with ⟨hl | hl, hno⟩ | hl
    · rw [a2.links, a1.links] at hl
      refine .inl ⟨hl, fun x hx hat => ?_⟩
      simp only [List.mem_singleton] at hx
      subst hx
      obtain ⟨h1, h2⟩ := hat
      simp only at h1 h2
      rw [h1, h2] at hno
      simp [Link.at] at hno
    · exact .inr ⟨(b, cst, lcst), by simp, .inl hl⟩
    · exact .inr ⟨(b, cst, lcst), by simp, .inr hl⟩
  · intro x hx
    simp only [List.mem_singleton] at hx
    subst hx
    refine ⟨hcst.1.trans a1.operation, a2.operation, ?_, by simp, a2.parent.trans hpar'.symm,
      (hcst.2.2.2.1.trans a1.parent).trans hpar'.symm⟩
    simp only [List.mem_append, List.mem_filter, List.mem_singleton]
    refine .inl ⟨.inr trivial, ?_⟩
    simp only [Link.at, Bool.not_eq_true', Bool.and_eq_false_iff, beq_eq_false_iff_ne]
    exact .inl (hold b.node hbl).2.symm

theorem Folded.old {h h' : Hugr Ops.Op Meta} {B : List (Break E × Nat × Nat)} (f : Folded h B h')
    {n : Nat} (hn : h.live n = true) : h'.ops n = h.ops n :=
  f.ops n fun hc => by rw [f.fresh n hc] at hn; cases hn

/-- All wires: the ports are distinct. -/
theorem breakAll_folded (B : List (Break E × Nat × Nat)) {h h' : Hugr Ops.Op Meta} (ht : IsTree h)
    (hlive : ∀ x ∈ B, h.live x.1.node = true)
    (hnd : (B.map fun x => (x.1.node, x.1.port)).Nodup) (hb : breakAll h B = some h') :
    Folded h B h' := by
  induction B generalizing h with
  | nil =>
    cases hb
    exact ⟨ht, by simp [newNodes], by simp [newNodes], by simp [newNodes], fun _ _ => rfl,
      fun _ _ => ⟨rfl, rfl⟩, by simp [newNodes], fun _ _ => rfl, fun _ _ => ⟨[], by simp⟩, by simp [newNodes], ⟨rfl, rfl⟩,
      fun l hl => .inl hl, fun l hl => .inl ⟨hl, by simp⟩, by simp⟩
  | cons x B ih =>
    obtain ⟨b, cst, lcst⟩ := x
    unfold breakAll at hb
    split at hb
    · cases hb
    rename_i h1 hb1
    have f1 := breakWire_folded ht hb1
    simp only [List.map_cons, List.nodup_cons] at hnd
    have hlive1 : ∀ n, h.live n = true → h1.live n = true := fun n hn => (f1.live n).2 (.inl hn)
    have f2 := ih f1.tree (fun x hx => hlive1 _ (hlive x (by simp [hx]))) hnd.2 hb
    have hnew : ∀ n, n ∈ newNodes ((b, cst, lcst) :: B) ↔ n ∈ newNodes [(b, cst, lcst)] ∨ n ∈ newNodes B := by
      intro n; simp [newNodes, or_assoc]
    obtain ⟨n1, n2, n3, n4, n5, n6⟩ := f1.new (b, cst, lcst) (by simp)
    have hl1 : h1.live lcst = true := (f1.live _).2 (.inr (by simp [newNodes]))
    have hc1 : h1.live cst = true := (f1.live _).2 (.inr (by simp [newNodes]))
    have hlf : h.live lcst = false := f1.fresh _ (by simp [newNodes])
    refine ⟨f2.tree, ?_, ?_, ?_, ?_, ?_, ?_, ?_, ?_, ?_, ?_, ?_, ?_, ?_⟩
    · intro n
      rw [f2.live, f1.live, hnew]
      tauto
    · intro n hn
      rcases (hnew n).1 hn with hn | hn
      · exact f1.fresh n hn
      · by_contra hc
        have := f2.fresh n hn
        rw [hlive1 n (by simpa using hc)] at this
        cases this
    · have : newNodes ((b, cst, lcst) :: B) = newNodes [(b, cst, lcst)] ++ newNodes B := by
        simp [newNodes]
      rw [this, List.nodup_append]
      refine ⟨f1.nodup, f2.nodup, fun a ha c hc hac => ?_⟩
      subst hac
      have := f2.fresh a hc
      rw [(f1.live a).2 (.inr ha)] at this
      cases this
    · intro n hn
      rw [hnew, not_or] at hn
      exact (f2.ops n hn.2).trans (f1.ops n hn.1)
    · intro n hn
      exact ⟨(f2.numPorts n (hlive1 n hn)).1.trans (f1.numPorts n hn).1,
        (f2.numPorts n (hlive1 n hn)).2.trans (f1.numPorts n hn).2⟩
    · intro n hn
      rcases (hnew n).1 hn with hn | hn
      · have hn1 : h1.live n = true := (f1.live n).2 (.inr hn)
        rw [(f2.numPorts n hn1).1, (f2.numPorts n hn1).2, f2.ops n fun hc => by
          rw [f2.fresh n hc] at hn1; cases hn1]
        exact f1.newPorts n hn
      · exact f2.newPorts n hn
    · intro n hn; exact (f2.parent n (hlive1 n hn)).trans (f1.parent n hn)
    · intro n hn
      obtain ⟨c1, e1, m1⟩ := f1.children n hn
      obtain ⟨c2, e2, m2⟩ := f2.children n (hlive1 n hn)
      refine ⟨c1 ++ c2, by rw [e2, e1, List.append_assoc], fun c hc => (hnew c).2 ?_⟩
      rcases List.mem_append.1 hc with hc | hc
      · exact .inl (m1 c hc)
      · exact .inr (m2 c hc)
    · intro n hn
      by_cases hn2 : n ∈ newNodes B
      · exact f2.noChildren n hn2
      · have hn1 := ((hnew n).1 hn).resolve_right hn2
        have hn1' : h1.live n = true := (f1.live n).2 (.inr hn1)
        obtain ⟨c2, e2, m2⟩ := f2.children n hn1'
        rw [e2, f1.noChildren n hn1, List.nil_append]
        by_contra hc
        obtain ⟨c, hc⟩ := List.exists_mem_of_ne_nil _ hc
        have hpar : h'.hier.parent c = some n := by
          rw [← f2.tree.child_iff]
          change c ∈ h'.children n
          rw [e2]; simp [hc]
        obtain ⟨x, hx, hxc⟩ := List.mem_flatMap.1 (m2 c hc)
        have hxl := hlive x (by simp [hx])
        obtain ⟨_, _, _, _, q1, q2⟩ := f2.new x hx
        have : h.hier.parent x.1.node = some n := by
          rw [← f1.parent _ hxl]
          simp only [List.mem_cons, List.not_mem_nil, or_false] at hxc
          rcases hxc with rfl | rfl
          · rw [← q2]; exact hpar
          · rw [← q1]; exact hpar
        have h1 := (ht.parent_live _ _ this).2
        rw [f1.fresh n hn1] at h1
        cases h1
    · exact ⟨f2.roots.1.trans f1.roots.1, f2.roots.2.trans f1.roots.2⟩
    · intro l hl
      rcases f1.kept l hl with hk | ⟨x, hx, hk⟩
      · rcases f2.kept l hk with hk | ⟨x, hx, hk⟩
        · exact .inl hk
        · exact .inr ⟨x, by simp [hx], hk⟩
      · simp only [List.mem_singleton] at hx
        exact .inr ⟨x, by simp [hx], hk⟩
    · intro l hl
      rcases f2.links l hl with ⟨hk, hno2⟩ | ⟨x, hx, hk⟩
      · rcases f1.links l hk with ⟨hk, hno1⟩ | ⟨x, hx, hk⟩
        · refine .inl ⟨hk, fun x hx => ?_⟩
          rcases List.mem_cons.1 hx with rfl | hx
          · exact hno1 _ (by simp)
          · exact hno2 x hx
        · simp only [List.mem_singleton] at hx
          exact .inr ⟨x, by simp [hx], hk⟩
      · exact .inr ⟨x, by simp [hx], hk⟩
    · intro x hx
      rcases List.mem_cons.1 hx with rfl | hx
      · have hnot : ∀ n, h1.live n = true → n ∉ newNodes B := by
          intro n hn hc
          rw [f2.fresh n hc] at hn
          cases hn
        refine ⟨(f2.ops _ (hnot _ hc1)).trans n1, (f2.ops _ (hnot _ hl1)).trans n2, ?_, ?_, (f2.parent _ hl1).trans n5,
          (f2.parent _ hc1).trans n6⟩
        · rcases f2.kept _ n3 with hk | ⟨y, hy, hk, _⟩
          · exact hk
          · have := hlive y (by simp [hy])
            rw [hk, hlf] at this
            cases this
        · rcases f2.kept _ n4 with hk | ⟨y, hy, hk1, hk2⟩
          · exact hk
          · exact absurd (List.mem_map.2 ⟨y, hy, Prod.ext hk1 hk2⟩) hnd.1
      · obtain ⟨m1, m2, m3, m4, m5, m6⟩ := f2.new x hx
        have := f1.parent _ (hlive x (by simp [hx]))
        exact ⟨m1, m2, m3, m4, m5.trans this, m6.trans this⟩

/-! ## The simulation -/

theorem newConstants_old (k : Nat → CVal E) (B : List (Break E × Nat × Nat)) {n : Nat}
    (hn : n ∉ newNodes B) : newConstants k B n = k n := by
  induction B with
  | nil => rfl
  | cons x B ih =>
    obtain ⟨b, cst, lcst⟩ := x
    simp only [newNodes, List.flatMap_cons, List.mem_append, List.mem_cons, List.not_mem_nil, or_false,
      not_or] at hn
    simp only [newConstants]
    rw [if_neg hn.1.1]
    exact ih hn.2

theorem newConstants_new (k : Nat → CVal E) (B : List (Break E × Nat × Nat)) (hnd : (newNodes B).Nodup)
    {x : Break E × Nat × Nat} (hx : x ∈ B) : newConstants k B x.2.1 = x.1.val.1 := by
  induction B with
  | nil => simp at hx
  | cons y B ih =>
    have heq : newNodes (y :: B) = [y.2.1, y.2.2] ++ newNodes B := by simp [newNodes]
    rw [heq, List.nodup_append] at hnd
    simp only [newConstants]
    rcases List.mem_cons.1 hx with rfl | hx
    · rw [if_pos rfl]
    · rw [if_neg, ih hnd.2.1 hx]
      intro he
      exact hnd.2.2 y.2.1 (by simp) x.2.1 (List.mem_flatMap.2 ⟨x, hx, by simp⟩) he.symm

theorem loads_nodup {B : List (Break E × Nat × Nat)} (hnd : (newNodes B).Nodup) :
    ((B.map replacedOf).map Replaced.load).Nodup := by
  induction B with
  | nil => simp
  | cons y B ih =>
    have heq : newNodes (y :: B) = [y.2.1, y.2.2] ++ newNodes B := by simp [newNodes]
    rw [heq, List.nodup_append] at hnd
    simp only [List.map_cons, List.nodup_cons]
    refine ⟨fun hm => ?_, ih hnd.2.1⟩
    simp only [List.map_map, List.mem_map, Function.comp_apply, replacedOf] at hm
    obtain ⟨x, hx, he⟩ := hm
    exact hnd.2.2 y.2.2 (by simp) x.2.2 (List.mem_flatMap.2 ⟨x, hx, by simp⟩) he.symm

theorem fold_sim {C : Validate.Context} {h h' : Hugr Ops.Op Meta} (ht : IsTree h) (hv : Valid C h)
    {B : List (Break E × Nat × Nat)} (f : Folded h B h') (S : Sem W E)
    (hlive : ∀ x ∈ B, h.live x.1.node = true)
    (hport : ∀ x ∈ B, x.1.port < numIns (h.ops x.1.node)) :
    Sim (fun n => h.live n = true) (fun _ => True) (B.map replacedOf) (newConstants S.const B) h S h' := by
  have hnew : ∀ x ∈ B, x.2.1 ∈ newNodes B ∧ x.2.2 ∈ newNodes B := fun x hx =>
    ⟨List.mem_flatMap.2 ⟨x, hx, by simp⟩, List.mem_flatMap.2 ⟨x, hx, by simp⟩⟩
  have hpre : ∀ n, h.live n = true → ∃ new, h'.children n = h.children n ++ new :=
    fun n hn => (f.children n hn).imp fun _ h => h.1
  have hkept : ∀ l ∈ h.links, ¬ l.dstPort < numIns (h.ops l.dst) → l ∈ h'.links := by
    intro l hl hno
    rcases f.kept l hl with hk | ⟨x, hx, h1, h2⟩
    · exact hk
    · exact absurd (hport x hx) (by rw [h1, h2]; exact hno)
  refine
    { ops := fun n hn => f.old hn
      parent := fun n p hn hp => ⟨(ht.parent_live _ _ hp).2, (f.parent n hn).trans hp⟩
      io := ?_
      ioParent := fun p i o hio => io_parent ht hio
      cond := ?_
      condParent := fun n _ _ _ tag c _ hc => child_parent ht (List.mem_of_getElem? hc)
      case := fun p c sig _ hp _ => (ht.parent_live _ _ hp).1
      cfg := ?_
      cfgParent := fun n _ entry rest _ hc => child_parent ht (by rw [hc]; simp)
      block := fun p g _ _ _ _ hp _ => (ht.parent_live _ _ hp).1
      links := ?_
      succ := ?_
      fns := ?_
      noFns := ?_
      loads := fun _ _ _ _ _ _ _ => trivial
      closed := ?_
      consts := fun n hn => newConstants_old _ _ fun hc => by rw [f.fresh n hc] at hn; cases hn
      values := ?_
      new := ?_
      loadOps := ?_
      nodup := loads_nodup f.nodup }
  · intro p i o hp _ hio
    obtain ⟨h1, h2⟩ := io_parent ht hio
    obtain ⟨rest, hc⟩ := hio
    obtain ⟨new, hn⟩ := hpre p hp
    exact ⟨(ht.parent_live _ _ h1).1, (ht.parent_live _ _ h2).1, rest ++ new, by rw [hn, hc]; simp⟩
  · intro n _ _ _ tag c hn _ hc
    obtain ⟨new, hn'⟩ := hpre n hn
    refine ⟨(ht.parent_live _ _ (child_parent ht (List.mem_of_getElem? hc))).1, ?_⟩
    rw [hn', List.getElem?_append_left, hc]
    exact (List.getElem?_eq_some_iff.1 hc).1
  · intro n _ entry rest hn _ hc
    obtain ⟨new, hn'⟩ := hpre n hn
    exact ⟨(ht.parent_live _ _ (child_parent ht (n := n) (c := entry) (by rw [hc]; simp))).1,
      rest ++ new, by rw [hn', hc]; simp⟩
  · intro l hl _
    rcases f.kept l hl with hk | ⟨x, hx, h1, h2⟩
    · exact .inl ⟨(link_live ht hv hl).1, hk⟩
    · exact .inr ⟨replacedOf x, List.mem_map.2 ⟨x, hx, rfl⟩, h1, h2⟩
  · intro l hl x y z hop
    obtain ⟨h1, h2⟩ := link_live ht hv hl
    exact ⟨fun _ => ⟨h2, hkept l hl (block_link ht hv hl hop).2⟩, fun _ => h1⟩
  · intro g i o _ _ hio
    exact (ht.parent_live _ _ (io_parent ht hio).1).2
  · intro g _ hno ⟨a, b, hg⟩
    by_cases hgn : g ∈ newNodes B
    · obtain ⟨x, hx, hxg⟩ := List.mem_flatMap.1 hgn
      obtain ⟨o1, o2, _⟩ := f.new x hx
      simp only [List.mem_cons, List.not_mem_nil, or_false] at hxg
      rcases hxg with rfl | rfl
      · rw [o1] at hg; cases hg
      · rw [o2] at hg; cases hg
    · rw [f.ops g hgn] at hg
      exact hno ⟨a, b, hg⟩
  · exact ⟨fun _ _ _ _ _ => funcsInAll_true _, fun _ _ _ _ _ => funcsInAll_true _,
      fun _ _ _ _ _ => funcsInAll_true _⟩
  · intro b hb
    obtain ⟨x, hx, rfl⟩ := List.mem_map.1 hb
    exact hport x hx
  · intro b hb
    obtain ⟨x, hx, rfl⟩ := List.mem_map.1 hb
    simp only [replacedOf, f.fresh _ (hnew x hx).2]
    simp
  · intro b hb
    obtain ⟨x, hx, rfl⟩ := List.mem_map.1 hb
    obtain ⟨o1, o2, o3, o4, o5, _⟩ := f.new x hx
    exact ⟨⟨_, o2⟩, ⟨_, o1⟩, newConstants_new _ _ f.nodup hx, o3, o4, o5⟩

end Verif.Dataflow
