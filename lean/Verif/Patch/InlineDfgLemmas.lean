import Verif.Patch.InlineDfgLinks
import Verif.Patch.ValidLemmas
import Verif.Graph.RemoveProps

/-!
# Inlining a DFG node of a valid Hugr
-/
namespace Verif.Patch

open Verif.Graph Verif.Ops Verif.Passes Verif.Validate Verif.Dataflow

variable {Meta : Type} {C : Validate.Context} {h : Hugr Ops.Op Meta}

/-! ## The hierarchy -/

/-- Moving nodes to a node that is not below them, one after the other. -/
theorem moveEach {p d : Nat} (hpd : p ≠ d) : ∀ (cs : List Nat) (h : Hugr Ops.Op Meta), IsTree h →
    h.hier.parent d = some p → cs.Nodup → (∀ c ∈ cs, h.hier.parent c = some d) →
    ∃ g, each (fun g c => g.setParent c p) h cs = some g ∧ IsTree g ∧
      (∀ m, g.hier.parent m = if m ∈ cs then some p else h.hier.parent m) ∧
      g.hier.children p = h.hier.children p ++ cs ∧
      (∀ m, m ≠ p → g.hier.children m = (h.hier.children m).filter (· ∉ cs)) ∧
      g = { h with hier := g.hier }
  | [], h, ht, _, _, _ => by
    refine ⟨h, rfl, ht, by simp, by simp, by simp, rfl⟩
  | c :: cs, h, ht, hd, hn, hc => by
    have hcd := hc c (by simp)
    have hac := ht.acyclic
    have hcp : c ≠ p := by
      rintro rfl
      exact hac _ _ hcd (.of_parent hd)
    have hdc : d ≠ c := by
      rintro rfl
      exact hac _ _ hcd (.refl _)
    obtain ⟨hiff, hmove⟩ := C20_set_parent h ht c p
    obtain ⟨h1, hs⟩ := hiff.2 ⟨(ht.parent_live _ _ hcd).1, (ht.parent_live _ _ hd).2, fun ha =>
      hac _ _ hcd ((Above.of_parent hd).trans ha)⟩
    obtain ⟨ht1, hm⟩ := hmove h1 hs
    have hch : h1.hier.children p = h.hier.children p ++ [c] := by
      rw [hm.target]
      congr 1
      rw [List.filter_eq_self]
      intro x hx
      have := (ht.child_iff p x).1 hx
      simp only [ne_eq, decide_not, Bool.not_eq_eq_eq_not, Bool.not_true, decide_eq_false_iff_not]
      rintro rfl
      rw [this] at hcd; cases hcd
      exact hpd rfl
    have hcs : ∀ x ∈ cs, h1.hier.parent x = some d := by
      intro x hx
      rw [hm.parent, if_neg (by rintro rfl; exact (List.nodup_cons.1 hn).1 hx)]
      exact hc x (by simp [hx])
    obtain ⟨g, e1, e2, e3, e4, e5, e6⟩ := moveEach hpd cs h1 ht1 (by rw [hm.parent, if_neg hdc]; exact hd)
      (List.nodup_cons.1 hn).2 hcs
    refine ⟨g, ?_, e2, ?_, ?_, ?_, ?_⟩
    · simp only [each, hs]; exact e1
    · intro m
      rw [e3, hm.parent]
      by_cases h1 : m ∈ cs <;> by_cases h2 : m = c <;> simp [h1, h2]
    · rw [e4, hch, List.append_assoc]; rfl
    · intro m hmp
      rw [e5 m hmp, hm.others m hmp, List.filter_filter]
      apply List.filter_congr
      intro x _
      by_cases h1 : x ∈ cs <;> by_cases h2 : x = c <;> simp [h1, h2]
    · rw [e6, hm.rest]

/-- What is left when a node without children is removed. -/
structure Removed (h : Hugr Ops.Op Meta) (n : Nat) (g : Hugr Ops.Op Meta) : Prop where
  tree : IsTree g
  live : ∀ m, g.live m = true ↔ h.live m = true ∧ m ≠ n
  ops : ∀ m, m ≠ n → g.ops m = h.ops m
  gone : g.ops n = .module
  ins : g.ins = h.ins
  outs : g.outs = h.outs
  metadata : g.metadata = h.metadata
  moduleRoot : g.moduleRoot = h.moduleRoot
  entrypoint : g.entrypoint = h.entrypoint
  cap : g.cap = h.cap
  parent : ∀ m, m ≠ n → g.hier.parent m = h.hier.parent m
  children : ∀ m, g.hier.children m = (h.hier.children m).filter (· ≠ n)
  links : g.links = h.links.filter fun l => l.src != n && l.dst != n

theorem removeLeaf (ht : IsTree h) {n : Nat} (hn : h.live n = true) (he : n ≠ h.entrypoint)
    (hr : n ≠ h.moduleRoot) (hc : h.children n = []) :
    ∃ g, h.removeNode opsInfo.toOpInfo n = some g ∧ Removed h n g := by
  have hvn : h.validNonEntrypoint n = true := by
    unfold Hugr.validNonEntrypoint
    rw [hn]; simp [he]
  have hleaf : ∀ m, h.hier.parent m ≠ some n := by
    intro m hm
    have : m ∈ h.children n := (ht.child_iff n m).2 hm
    rw [hc] at this; cases this
  have hab : ∀ m, m ≠ n → ¬ Above h.hier.parent m n := by
    intro m hm ha
    obtain ⟨c, _, h2⟩ := ha.last hm
    exact hleaf c h2
  refine ⟨_, by unfold Hugr.removeNode; rw [if_pos hvn], ?_⟩
  have ht0 : IsTree ({ h with links := [] } : Hugr Ops.Op Meta) := ⟨ht.1, ht.2, ht.3, ht.4, ht.5, ht.6, ht.7, ht.8, ht.9⟩
  obtain ⟨htg, hi⟩ := removeNode_leaf_tree (I := opsInfo.toOpInfo) (h := { h with links := [] }) ht0
    (by intro l hl; cases hl) hr hleaf
    (by unfold Hugr.removeNode; exact if_pos hvn)
  refine ⟨⟨htg.1, htg.2, htg.3, htg.4, htg.5, htg.6, htg.7, htg.8, htg.9⟩, ?_, ?_, ?_, rfl, rfl, rfl, rfl, rfl, rfl, ?_, ?_, rfl⟩
  · intro m
    by_cases h1 : m = n
    · subst h1; simp [upd]
    · simp [upd, h1]
  · intro m hm
    simp [upd, hm]
  · simp [upd, opsInfo]
  · intro m hm
    exact (hi.outside m (hab m hm)).2.1
  · intro m
    by_cases hm : m = n
    · subst hm
      have := (hi.dead m (.refl _) (by simp [upd])).2.1
      refine this.trans ?_
      have hc' : h.hier.children m = [] := hc
      rw [hc']; rfl
    · refine (hi.outside m (hab m hm)).2.2.trans ?_
      change (h.hier.children m).erase n = _
      rw [(ht.child_once m).erase_eq_filter]
      apply List.filter_congr
      intro x _
      by_cases hx : x = n <;> simp [hx]

theorem inlineRemove_eq (ht : IsTree h) {d i o : Nat} (hd : h.live d = true) (hi : h.live i = true)
    (ho : h.live o = true) (hde : d ≠ h.entrypoint) (hie : i ≠ h.entrypoint) (hoe : o ≠ h.entrypoint)
    (hdr : d ≠ h.moduleRoot) (hir : i ≠ h.moduleRoot) (hor : o ≠ h.moduleRoot)
    (hio : i ≠ o) (hdi : d ≠ i) (hdo : d ≠ o)
    (hci : h.children i = []) (hco : h.children o = []) (hcd : h.children d = [i, o]) :
    ∃ h1 h2 g, inlineRemove h d i o = some g ∧ Removed h i h1 ∧ Removed h1 o h2 ∧ Removed h2 d g := by
  obtain ⟨h1, e1, r1⟩ := removeLeaf ht hi hie hir hci
  have hco1 : h1.children o = [] := by
    refine (r1.children o).trans ?_
    have : h.hier.children o = [] := hco
    rw [this]; rfl
  obtain ⟨h2, e2, r2⟩ := removeLeaf r1.tree ((r1.live o).2 ⟨ho, hio.symm⟩) (by rw [r1.entrypoint]; exact hoe)
    (by rw [r1.moduleRoot]; exact hor) hco1
  have hcd2 : h2.children d = [] := by
    refine (r2.children d).trans ?_
    rw [r1.children d]
    have : h.hier.children d = [i, o] := hcd
    rw [this]
    simp [hio.symm]
  obtain ⟨g, e3, r3⟩ := removeLeaf r2.tree ((r2.live d).2 ⟨(r1.live d).2 ⟨hd, hdi⟩, hdo⟩)
    (by rw [r2.entrypoint, r1.entrypoint]; exact hde) (by rw [r2.moduleRoot, r1.moduleRoot]; exact hdr) hcd2
  refine ⟨h1, h2, g, ?_, r1, r2, r3⟩
  unfold inlineRemove
  simp only [e1, e2, hcd2, if_true, e3]

/-! ## The links -/

theorem count_linksTo (n port : Nat) : inCount h.links n port = (linksTo h n port).length := by
  unfold inCount linksTo
  rw [List.countP_eq_length_filter]

theorem dfg_ports (sig : Types.Signature) :
    (Op.dfg sig).ports .incoming = sig.input.map .value ++ [.stateOrder] ∧
    (Op.dfg sig).ports .outgoing = sig.output.map .value ++ [.stateOrder] := ⟨rfl, rfl⟩

theorem valueOrOrder {ts : List Types.Ty} {k : Nat} {kind : Kind}
    (hk : (ts.map Kind.value ++ [Kind.stateOrder])[k]? = some kind) :
    kind.isValue = true ∨ kind = .stateOrder := by
  have := List.mem_of_getElem? hk
  simp only [List.mem_append, List.mem_map, List.mem_singleton] at this
  rcases this with ⟨t, _, rfl⟩ | rfl
  · exact .inl rfl
  · exact .inr rfl

/-- What inlining needs to know about a DFG node. -/
structure DfgAt (h : Hugr Ops.Op Meta) (p d i o : Nat) (sig : Types.Signature) (rest : List Nat) : Prop where
  op : h.ops d = .dfg sig
  parent : h.hier.parent d = some p
  children : h.children d = i :: o :: rest
  opI : h.ops i = .input sig.input
  opO : h.ops o = .output sig.output

theorem dfgAt (ht : IsTree h) (hv : Valid C h) {p d : Nat} (hp : h.hier.parent d = some p)
    {sig : Types.Signature} (hop : h.ops d = .dfg sig) : ∃ i o rest, DfgAt h p d i o sig rest := by
  have hc := hv.children d (ht.parent_live _ _ hp).1
  unfold ChildrenOk at hc
  rw [hop] at hc
  simp only [body] at hc
  obtain ⟨i, o, rest, h1, h2, h3, _⟩ := hc
  exact ⟨i, o, rest, hop, hp, h1, h2, h3⟩

variable {p d i o : Nat} {sig : Types.Signature} {rest : List Nat}

theorem DfgAt.parentI (ht : IsTree h) (hd : DfgAt h p d i o sig rest) : h.hier.parent i = some d :=
  (ht.child_iff d i).1 (by have := hd.children; change h.hier.children d = _ at this; rw [this]; simp)

theorem DfgAt.parentO (ht : IsTree h) (hd : DfgAt h p d i o sig rest) : h.hier.parent o = some d :=
  (ht.child_iff d o).1 (by have := hd.children; change h.hier.children d = _ at this; rw [this]; simp)

theorem DfgAt.ne (ht : IsTree h) (hd : DfgAt h p d i o sig rest) : d ≠ i ∧ d ≠ o ∧ i ≠ o := by
  refine ⟨?_, ?_, ?_⟩
  · rintro rfl
    have := hd.opI; rw [hd.op] at this; cases this
  · rintro rfl
    have := hd.opO; rw [hd.op] at this; cases this
  · rintro rfl
    have := hd.opI; rw [hd.opO] at this; cases this

/-- The links of a DFG node are of values or order. -/
theorem DfgAt.kind (hv : Valid C h) (hd : DfgAt h p d i o sig rest) {l : Link} (hl : l ∈ h.links)
    (hend : l.src = d ∨ l.src = i ∨ l.dst = d ∨ l.dst = o) :
    ∃ kind, srcKind h l = some kind ∧ (kind.isValue = true ∨ kind = .stateOrder) := by
  obtain ⟨kind, h1, h2⟩ := link_kinds hv hl
  refine ⟨kind, h1, ?_⟩
  unfold srcKind at h1
  rcases hend with e | e | e | e
  · rw [e, hd.op] at h1; exact valueOrOrder h1
  · rw [e, hd.opI] at h1; exact valueOrOrder h1
  · rw [e, hd.op] at h2; exact valueOrOrder h2
  · rw [e, hd.opO] at h2; exact valueOrOrder h2

theorem DfgAt.links (ht : IsTree h) (hv : Valid C h) (hd : DfgAt h p d i o sig rest) :
    DfgLinks h d i o sig.input.length sig.output.length := by
  obtain ⟨n1, n2, n3⟩ := hd.ne ht
  have hlive : h.live d = true := (ht.parent_live _ _ hd.parent).1
  have hliveI : h.live i = true := (ht.parent_live _ _ (hd.parentI ht)).1
  have hliveO : h.live o = true := (ht.parent_live _ _ (hd.parentO ht)).1
  have pd := hv.ports d hlive
  have pi := hv.ports i hliveI
  have po := hv.ports o hliveO
  have hok := valid_linksOk ht hv
  have hlast : ∀ l ∈ h.links, (l.src = d ∨ l.src = i ∨ l.dst = d ∨ l.dst = o) →
      (l.srcPort = lastPort (h.ops l.src) .outgoing ↔ l.dstPort = lastPort (h.ops l.dst) .incoming) := by
    intro l hl he
    obtain ⟨kind, k1, k2⟩ := hd.kind hv hl he
    obtain ⟨_, h1, h2⟩ := link_order ht hv hl k1 k2
    rw [← h1, h2]
  have lD : lastPort (h.ops d) .incoming = sig.input.length := by rw [hd.op]; simp [lastPort, Op.ports]
  have lDo : lastPort (h.ops d) .outgoing = sig.output.length := by rw [hd.op]; simp [lastPort, Op.ports]
  have lI : lastPort (h.ops i) .outgoing = sig.input.length := by rw [hd.opI]; simp [lastPort, Op.ports]
  have lO : lastPort (h.ops o) .incoming = sig.output.length := by rw [hd.opO]; simp [lastPort, Op.ports]
  refine ⟨hlive, hliveI, hliveO, ?_, ?_, ?_, ?_, ?_, ?_, lO, n1, n2, n3, ?_, ?_, ?_, ?_, ?_, ?_, ?_, ?_, ?_, ?_,
    ?_, ?_, ?_, ?_⟩
  · rw [pd.1, hd.op]; simp [Op.ports]
  · rw [pd.2, hd.op]; simp [Op.ports]
  · rw [pi.2, hd.opI]; simp [Op.ports]
  · rw [po.1, hd.opO]; simp [Op.ports]
  · rw [← lI]
    exact (otherPort_last (hv.tags i hliveI) (kind := .stateOrder) (by rw [hd.opI]; simp [Op.ports]) (.inr rfl)).1
  · rw [← lO]
    exact (otherPort_last (hv.tags o hliveO) (kind := .stateOrder) (by rw [hd.opO]; simp [Op.ports]) (.inr rfl)).1
  · intro k hk
    rw [count_linksTo]
    exact hv.inDegree d k (.value sig.input[k]) hlive (by
      rw [hd.op, (dfg_ports sig).1, List.getElem?_append_left (by simpa using hk)]; simp [hk])
  · intro k hk
    rw [count_linksTo]
    exact hv.inDegree o k (.value sig.output[k]) hliveO (by
      rw [hd.opO]
      change (sig.output.map Kind.value ++ [Kind.stateOrder])[k]? = _
      rw [List.getElem?_append_left (by simpa using hk)]; simp [hk])
  · intro l hl
    obtain ⟨a1, a2, a3, a4⟩ := hok l hl
    exact ⟨⟨a1, a2⟩, a3, a4⟩
  · intro l hl he
    obtain ⟨kind, k1, k2⟩ := hd.kind hv hl (he.elim (fun e => .inr (.inr (.inl e))) fun e => .inr (.inr (.inr e)))
    exact (link_order ht hv hl k1 k2).1.1
  · intro l hl he
    obtain ⟨kind, k1, k2⟩ := hd.kind hv hl (he.elim .inl fun e => .inr (.inl e))
    exact (link_order ht hv hl k1 k2).1.2
  · intro l hl h1 h2
    refine link_not_out ht hv hl ?_
    rw [h1, h2]
    exact .child (hd.parentI ht)
  · intro l hl h1 h2
    obtain ⟨kind, k1, k2⟩ := hd.kind hv hl (.inl h1)
    refine link_not_in ht hv hl k1 k2 ?_
    rw [h1, h2]
    exact .of_parent (hd.parentO ht)
  · intro l hl h1 h2
    obtain ⟨kind, k1, k2⟩ := hd.kind hv hl (.inl h1)
    refine link_not_in ht hv hl k1 k2 ?_
    rw [h1, h2]
    exact .refl _
  · intro l hl h1
    obtain ⟨kind, k1, _⟩ := link_kinds hv hl
    unfold srcKind at k1
    rw [h1, hd.opO] at k1
    simp [Op.ports] at k1
  · intro l hl h1
    obtain ⟨kind, _, k1⟩ := link_kinds hv hl
    rw [h1, hd.opI] at k1
    simp [Op.ports] at k1
  · intro l hl h1 h2
    rw [hlast l hl (.inr (.inr (.inl h1))), h1, lD, h2]
  · intro l hl h1 h2
    rw [← hlast l hl (.inr (.inl h1)), h1, lI, h2]
  · intro l hl h1 h2
    rw [← hlast l hl (.inl h1), h1, lDo, h2]
  · intro l hl h1 h2
    rw [hlast l hl (.inr (.inr (.inr h1))), h1, lO, h2]

/-- The order of nodes, said with kinds. -/
theorem DfgAt.orders (ht : IsTree h) (hv : Valid C h) (hd : DfgAt h p d i o sig rest) {l : Link}
    (hl : l ∈ h.links) :
    (l.src = i → (Orders h l ↔ l.srcPort = sig.input.length)) ∧
    (l.src = d → (Orders h l ↔ l.srcPort = sig.output.length)) ∧
    (l.dst = d → (Orders h l ↔ l.dstPort = sig.input.length)) ∧
    (l.dst = o → (Orders h l ↔ l.dstPort = sig.output.length)) := by
  have key : (l.src = d ∨ l.src = i ∨ l.dst = d ∨ l.dst = o) →
      (Orders h l ↔ l.srcPort = lastPort (h.ops l.src) .outgoing) ∧
      (Orders h l ↔ l.dstPort = lastPort (h.ops l.dst) .incoming) := by
    intro he
    obtain ⟨kind, k1, k2⟩ := hd.kind hv hl he
    obtain ⟨_, h1, h2⟩ := link_order ht hv hl k1 k2
    have : Orders h l ↔ kind = .stateOrder := by unfold Orders; rw [k1]; simp
    rw [this]
    exact ⟨h1, h2⟩
  refine ⟨?_, ?_, ?_, ?_⟩ <;> intro e
  · rw [(key (.inr (.inl e))).1, e, hd.opI]; simp [lastPort, Op.ports]
  · rw [(key (.inl e)).1, e, hd.op]; simp [lastPort, Op.ports]
  · rw [(key (.inr (.inr (.inl e)))).2, e, hd.op]; simp [lastPort, Op.ports]
  · rw [(key (.inr (.inr (.inr e)))).2, e, hd.opO]; simp [lastPort, Op.ports]

theorem DfgAt.ordIn (ht : IsTree h) (hv : Valid C h) (hd : DfgAt h p d i o sig rest) {x y : Nat} :
    OrdIn h.links d i sig.input.length x y ↔ OrderedIn h d i x y := by
  unfold OrdIn OrderedIn
  constructor
  · rintro ⟨l1, hl1, l2, hl2, e1, e2, e3, e4, hor⟩
    refine ⟨l1, hl1, l2, hl2, e1, e2, e3, e4, ?_⟩
    rw [(hd.orders ht hv hl1).2.2.1 e2, (hd.orders ht hv hl2).1 e3]
    exact hor
  · rintro ⟨l1, hl1, l2, hl2, e1, e2, e3, e4, hor⟩
    rw [(hd.orders ht hv hl1).2.2.1 e2, (hd.orders ht hv hl2).1 e3] at hor
    exact ⟨l1, hl1, l2, hl2, e1, e2, e3, e4, hor⟩

theorem DfgAt.ordOut (ht : IsTree h) (hv : Valid C h) (hd : DfgAt h p d i o sig rest) {x y : Nat} :
    OrdOut h d i o sig.input.length sig.output.length x y ↔ OrderedOut h d i o x y := by
  unfold OrdOut OrderedOut
  constructor
  · rintro ⟨l2, hl2, e1, e2, hin | ⟨l1, hl1, e3, hc, hor⟩⟩
    · exact ⟨l2, hl2, e1, e2, .inl ((hd.ordIn ht hv).1 hin)⟩
    · refine ⟨l2, hl2, e1, e2, .inr ⟨l1, hl1, e3, hc, ?_⟩⟩
      rw [(hd.orders ht hv hl1).2.2.2 e3, (hd.orders ht hv hl2).2.1 e1]
      exact hor
  · rintro ⟨l2, hl2, e1, e2, hin | ⟨l1, hl1, e3, hc, hor⟩⟩
    · exact ⟨l2, hl2, e1, e2, .inl ((hd.ordIn ht hv).2 hin)⟩
    · rw [(hd.orders ht hv hl1).2.2.2 e3, (hd.orders ht hv hl2).2.1 e1] at hor
      exact ⟨l2, hl2, e1, e2, .inr ⟨l1, hl1, e3, hc, hor⟩⟩

/-- The order ports at the ends of a link of the DFG node. -/
theorem DfgAt.ends (ht : IsTree h) (hv : Valid C h) (hd : DfgAt h p d i o sig rest) {l : Link}
    (hl : l ∈ h.links) (he : l.src = d ∨ l.src = i ∨ l.dst = d ∨ l.dst = o) :
    (∀ j, ((h.ops l.src).ports .outgoing)[j]? = some .stateOrder ↔ j = lastPort (h.ops l.src) .outgoing) ∧
    (∀ j, ((h.ops l.dst).ports .incoming)[j]? = some .stateOrder ↔ j = lastPort (h.ops l.dst) .incoming) := by
  obtain ⟨kind, k1, k2⟩ := hd.kind hv hl he
  obtain ⟨k', k3, k4⟩ := link_kinds hv hl
  rw [k1] at k3; cases k3
  obtain ⟨l1, l2⟩ := link_live ht hv hl
  exact ⟨(otherPort_last (hv.tags _ l1) (List.mem_of_getElem? k1) k2).2.2,
    (otherPort_last (hv.tags _ l2) (List.mem_of_getElem? k4) k2).2.2⟩

theorem isOrderLink_iff {l : Link}
    (h1 : ∀ j, ((h.ops l.src).ports .outgoing)[j]? = some .stateOrder ↔ j = lastPort (h.ops l.src) .outgoing)
    (h2 : ∀ j, ((h.ops l.dst).ports .incoming)[j]? = some .stateOrder ↔ j = lastPort (h.ops l.dst) .incoming) :
    IsOrderLink h l ↔ l = ordLink h l.src l.dst := by
  unfold IsOrderLink srcKind
  rw [h1, h2]
  cases l
  simp [ordLink]

theorem DfgAt.after (ht : IsTree h) (hv : Valid C h) (hd : DfgAt h p d i o sig rest) (l : Link) :
    After4 h d i o sig.input.length sig.output.length l ↔
    ((∃ n port, ⟨n, port, l.dst, l.dstPort⟩ ∈ h.links ∧ Comes h d i o n port l.src l.srcPort) ∨
     (IsOrderLink h l ∧ (OrderedIn h d i l.src l.dst ∨ OrderedOut h d i o l.src l.dst))) := by
  unfold After4
  rw [hd.ordIn ht hv, hd.ordOut ht hv]
  refine or_congr Iff.rfl (and_congr_left fun hor => (isOrderLink_iff ?_ ?_).symm)
  · have hin : ∀ y, OrderedIn h d i l.src y → ∀ j, ((h.ops l.src).ports .outgoing)[j]? = some .stateOrder ↔
        j = lastPort (h.ops l.src) .outgoing := by
      rintro y ⟨l1, hl1, l2, hl2, e1, e2, _⟩
      have := (hd.ends ht hv hl1 (.inr (.inr (.inl e2)))).1
      rw [e1] at this
      exact this
    rcases hor with h1 | ⟨l2, hl2, _, _, h1 | ⟨l1, hl1, e1, ⟨sp, hc⟩, _⟩⟩
    · exact hin _ h1
    · exact hin _ h1
    · generalize hn : l1.src = n at hc
      generalize l1.srcPort = np at hc
      generalize hs : l.src = s at hc
      cases hc with
      | self =>
        have := (hd.ends ht hv hl1 (.inr (.inr (.inr e1)))).1
        rw [hn] at this
        exact this
      | input h2 => exact (hd.ends ht hv h2 (.inr (.inr (.inl rfl)))).1
      | output => exact absurd e1 ((hd.links ht hv).noDO l1 hl1 hn)
  · rcases hor with ⟨l1, hl1, l2, hl2, e1, e2, e3, e4, _⟩ | ⟨l2, hl2, e3, e4, _⟩
    · have := (hd.ends ht hv hl2 (.inr (.inl e3))).2
      rw [e4] at this
      exact this
    · have := (hd.ends ht hv hl2 (.inl e3)).2
      rw [e4] at this
      exact this

theorem DfgLinks.hier {h g : Hugr Ops.Op Meta} {d i o a b : Nat} (hd : DfgLinks h d i o a b)
    (hg : g = { h with hier := g.hier }) : DfgLinks g d i o a b := by
  rw [hg]
  exact ⟨hd.1, hd.2, hd.3, hd.4, hd.5, hd.6, hd.7, hd.8, hd.9, hd.10, hd.11, hd.12, hd.13, hd.14, hd.15, hd.16,
    fun l hl he => ⟨(hd.srcOrder l hl he).1, (hd.srcOrder l hl he).2, (hd.srcOrder l hl he).3⟩,
    fun l hl he => ⟨(hd.dstOrder l hl he).1, (hd.dstOrder l hl he).2, (hd.dstOrder l hl he).3⟩, hd.19,
    hd.20, hd.21, hd.22, hd.23, hd.24, hd.25, hd.26, hd.27⟩

theorem comes_congr {h g : Hugr Ops.Op Meta} (hl : g.links = h.links) {d i o n port s sp : Nat} :
    Comes g d i o n port s sp ↔ Comes h d i o n port s sp := by
  constructor
  · intro hc
    induction hc with
    | self h1 h2 => exact .self h1 h2
    | input h1 => exact .input (by rw [← hl]; exact h1)
    | output h1 _ ih => exact .output (by rw [← hl]; exact h1) ih
  · intro hc
    induction hc with
    | self h1 h2 => exact .self h1 h2
    | input h1 => exact .input (by rw [hl]; exact h1)
    | output h1 _ ih => exact .output (by rw [hl]; exact h1) ih

/-- Inlining a DFG node of a valid Hugr. -/
theorem inlined_of (ht : IsTree h) (hv : Valid C h) (hd : DfgAt h p d i o sig rest)
    (hde : d ≠ h.entrypoint) : ∃ g, inlineDfg h d = .ok g ∧ IsTree g ∧ Inlined h p d i o g := by
  have hac := ht.acyclic
  obtain ⟨n1, n2, n3⟩ := hd.ne ht
  have hpd : p ≠ d := by
    rintro rfl
    exact hac _ _ hd.parent (.refl _)
  have hpi : p ≠ i := by
    rintro rfl
    exact hac _ _ (hd.parentI ht) (.of_parent hd.parent)
  have hpo : p ≠ o := by
    rintro rfl
    exact hac _ _ (hd.parentO ht) (.of_parent hd.parent)
  have hchd : h.hier.children d = i :: o :: rest := hd.children
  have hnd := ht.child_once d
  rw [hchd, List.nodup_cons, List.nodup_cons] at hnd
  have hpar : ∀ c ∈ rest, h.hier.parent c = some d := fun c hc =>
    (ht.child_iff d c).1 (by rw [hchd]; simp [hc])
  obtain ⟨h1, e1, ht1, m1, m2, m3, m4⟩ := moveEach hpd rest h ht hd.parent hnd.2.2 hpar
  have hk := (hd.links ht hv).hier m4
  obtain ⟨ls, e2, hls, hcount⟩ := inlineLinks_eq hk
  have hlive : h1.live = h.live := by rw [m4]
  have hops : h1.ops = h.ops := by rw [m4]
  have hentry : h1.entrypoint = h.entrypoint := by rw [m4]
  have hroot : h1.moduleRoot = h.moduleRoot := by rw [m4]
  have hlinks : h1.links = h.links := by rw [m4]
  have ht2 : IsTree (SetLinks h1 ls) := ⟨ht1.1, ht1.2, ht1.3, ht1.4, ht1.5, ht1.6, ht1.7, ht1.8, ht1.9⟩
  have hleaf : ∀ n, h.live n = true → (body (h.ops n)).isSome = false → (∃ ts, h.ops n = .input ts) ∨ (∃ ts, h.ops n = .output ts) →
      h.hier.children n = [] ∧ n ≠ h.entrypoint := by
    intro n hn _ hio
    constructor
    · have := hv.children n hn
      unfold ChildrenOk at this
      rcases hio with ⟨ts, e⟩ | ⟨ts, e⟩ <;> rw [e] at this <;> exact this
    · rintro rfl
      have := hv.entrypoint
      rcases hio with ⟨ts, e⟩ | ⟨ts, e⟩ <;> rw [e] at this <;> simp [Container, body] at this
  obtain ⟨ci, ei⟩ := hleaf i (hd.links ht hv).liveI (by rw [hd.opI]; rfl) (.inl ⟨_, hd.opI⟩)
  obtain ⟨co, eo⟩ := hleaf o (hd.links ht hv).liveO (by rw [hd.opO]; rfl) (.inr ⟨_, hd.opO⟩)
  have hnr : ∀ {n q}, h.hier.parent n = some q → n ≠ h.moduleRoot := by
    rintro n q hn rfl
    rw [ht.root_top] at hn; cases hn
  have hcd : (SetLinks h1 ls).children d = [i, o] := by
    refine (m3 d hpd.symm).trans ?_
    rw [hchd]
    have hi : i ∉ rest := fun hm => hnd.1 (by simp [hm])
    have hr : rest.filter (· ∉ rest) = [] := by simp
    simp [hi, hnd.2.1, hr]
  obtain ⟨g1, g2, g, e3, r1, r2, r3⟩ := inlineRemove_eq (h := SetLinks h1 ls) (d := d) (i := i) (o := o) ht2
    (by rw [setLinks_live, hlive]; exact (hd.links ht hv).liveD)
    (by rw [setLinks_live, hlive]; exact (hd.links ht hv).liveI)
    (by rw [setLinks_live, hlive]; exact (hd.links ht hv).liveO)
    (by change d ≠ h1.entrypoint; rw [hentry]; exact hde)
    (by change i ≠ h1.entrypoint; rw [hentry]; exact ei)
    (by change o ≠ h1.entrypoint; rw [hentry]; exact eo)
    (by change d ≠ h1.moduleRoot; rw [hroot]; exact hnr hd.parent)
    (by change i ≠ h1.moduleRoot; rw [hroot]; exact hnr (hd.parentI ht))
    (by change o ≠ h1.moduleRoot; rw [hroot]; exact hnr (hd.parentO ht)) n3 n1 n2
    (by refine (m3 i hpi.symm).trans ?_; rw [ci]; rfl)
    (by refine (m3 o hpo.symm).trans ?_; rw [co]; rfl) hcd
  have hparent : h.getParent d = some p := by
    unfold Hugr.getParent
    rw [(hd.links ht hv).liveD]
    simp [hnr hd.parent, hd.parent]
  have hgetio : getIo h d = some (i, o) := getIo_of ⟨rest, hd.children⟩ (by rw [hd.op]; rfl)
  refine ⟨g, ?_, r3.tree, ?_⟩
  · unfold inlineDfg inlineVerify
    rw [hd.op]
    simp only [if_neg hde]
    unfold inlineApply
    have hlv := (hd.links ht hv).liveD
    have o1 : (h.ops d).otherPort .incoming = .ok (some sig.input.length) := by
      have := (otherPort_last (hv.tags d hlv) (dir := .incoming) (kind := .stateOrder) (by rw [hd.op]; simp [Op.ports]) (.inr rfl)).1
      rw [this, hd.op]; simp [lastPort, Op.ports]
    have o2 : (h.ops d).otherPort .outgoing = .ok (some sig.output.length) := by
      have := (otherPort_last (hv.tags d hlv) (dir := .outgoing) (kind := .stateOrder) (by rw [hd.op]; simp [Op.ports]) (.inr rfl)).1
      rw [this, hd.op]; simp [lastPort, Op.ports]
    have hdrop : (h.children d).drop 2 = rest := by rw [hd.children]; rfl
    simp only [o1, o2, hparent, hgetio, hdrop, e1, e2, e3]
  · have hch : ∀ n, g.hier.children n = (((h1.hier.children n).filter (· ≠ i)).filter (· ≠ o)).filter (· ≠ d) := by
      intro n
      rw [r3.children, r2.children, r1.children]; rfl
    have hne : ∀ n, n ≠ p → n ≠ d → ∀ x ∈ h.hier.children n, x ∉ rest ∧ x ≠ i ∧ x ≠ o ∧ x ≠ d := by
      intro n hn1 hn2 x hx
      have hx := (ht.child_iff n x).1 hx
      refine ⟨fun hm => ?_, ?_, ?_, ?_⟩
      · have := hpar x hm; rw [hx] at this; cases this; exact hn2 rfl
      · rintro rfl; have := hd.parentI ht; rw [hx] at this; cases this; exact hn2 rfl
      · rintro rfl; have := hd.parentO ht; rw [hx] at this; cases this; exact hn2 rfl
      · rintro rfl; have := hd.parent; rw [hx] at this; cases this; exact hn1 rfl
    refine ⟨?_, ?_, ?_, ?_, ?_, ?_, ?_, ?_, ?_, ?_, ?_, ?_, ?_, ?_, ?_⟩
    · intro n
      rw [r3.live, r2.live, r1.live, setLinks_live, hlive]
      tauto
    · intro n a1 a2 a3
      rw [r3.ops n a1, r2.ops n a3, r1.ops n a2, setLinks_ops, hops]
    · rintro n (rfl | rfl | rfl)
      · exact r3.gone
      · rw [r3.ops _ n1.symm, r2.ops _ n3]; exact r1.gone
      · rw [r3.ops _ n2.symm]; exact r2.gone
    · rw [r3.ins, r2.ins, r1.ins, setLinks_ins, m4]
    · rw [r3.outs, r2.outs, r1.outs, setLinks_outs, m4]
    · rw [r3.metadata, r2.metadata, r1.metadata]; change h1.metadata = _; rw [m4]
    · rw [r3.moduleRoot, r2.moduleRoot, r1.moduleRoot]; exact hroot
    · rw [r3.entrypoint, r2.entrypoint, r1.entrypoint]; exact hentry
    · rw [r3.cap, r2.cap, r1.cap]; change h1.cap = _; rw [m4]
    · refine (hch p).trans ?_
      rw [m2]
      have hdrop : (h.children d).drop 2 = rest := by rw [hd.children]; rfl
      rw [hdrop]
      simp only [List.filter_append]
      congr 1
      · rw [List.filter_filter, List.filter_filter]
        apply List.filter_congr
        intro x hx
        have hx := (ht.child_iff p x).1 hx
        have a1 : x ≠ i := by rintro rfl; have := hd.parentI ht; rw [hx] at this; cases this; exact hpd rfl
        have a2 : x ≠ o := by rintro rfl; have := hd.parentO ht; rw [hx] at this; cases this; exact hpd rfl
        simp [a1, a2]
      · rw [List.filter_filter, List.filter_filter, List.filter_eq_self]
        intro x hx
        have a1 : x ≠ i := by rintro rfl; exact hnd.1 (by simp [hx])
        have a2 : x ≠ o := by rintro rfl; exact hnd.2.1 hx
        have a3 : x ≠ d := by rintro rfl; exact hac _ _ (hpar _ hx) (.refl _)
        simp [a1, a2, a3]
    · refine (hch d).trans ?_
      have : h1.hier.children d = [i, o] := hcd
      rw [this]
      simp [n3.symm]
    · intro n hn1 hn2
      refine (hch n).trans ?_
      rw [m3 n hn1]
      simp only [List.filter_filter]
      rw [List.filter_eq_self.2]
      · rfl
      · intro x hx
        obtain ⟨b1, b2, b3, b4⟩ := hne n hn1 hn2 x hx
        simp [b1, b2, b3, b4]
    · intro n a1 a2 a3
      rw [r3.parent n a1, r2.parent n a3, r1.parent n a2]
      change h1.hier.parent n = _
      rw [m1]
      by_cases hn : n ∈ rest
      · rw [if_pos hn, if_pos (hpar n hn)]
      · rw [if_neg hn, if_neg]
        intro hp
        have := (ht.child_iff d n).2 hp
        rw [hchd] at this
        simp [a2, a3, hn] at this
    · intro l
      have hafter := hd.after ht hv l
      have h4 : After4 h1 d i o sig.input.length sig.output.length l ↔
          After4 h d i o sig.input.length sig.output.length l := by
        have : ∀ x y, ordLink h1 x y = ordLink h x y := fun x y => by unfold ordLink; rw [hops]
        simp only [After4, OrdOut, comes_congr hlinks, hlinks, this]
      rw [← hafter, ← h4, r3.links, r2.links, r1.links]
      simp only [List.mem_filter, setLinks_links, Bool.and_eq_true, bne_iff_ne, ne_eq]
      constructor
      · rintro ⟨⟨⟨hm, a1, a2⟩, a3, a4⟩, a5, a6⟩
        exact ⟨⟨a5, a1, a3⟩, ⟨a6, a2, a4⟩, (hls l a5 a1 a3 a6 a2 a4).1 hm⟩
      · rintro ⟨⟨a5, a1, a3⟩, ⟨a6, a2, a4⟩, hm⟩
        exact ⟨⟨⟨(hls l a5 a1 a3 a6 a2 a4).2 hm, a1, a2⟩, a3, a4⟩, a5, a6⟩
    · intro n port kind a1 a2 a3 hk' ho
      rw [← count_linksTo, ← count_linksTo, ← hlinks, ← hcount n port a1 a3 (by
        intro l hl hs hn
        rw [hops, ← hn]
        rw [hlinks] at hl
        obtain ⟨_, e⟩ := hd.ends ht hv hl (by tauto)
        intro hp
        have := (e port).2 hp
        rw [hn, hk'] at this
        exact ho (Option.some.inj this))]
      rw [r3.links, r2.links, r1.links, setLinks_links]
      unfold inCount
      exact (List.filter_sublist.trans (List.filter_sublist.trans List.filter_sublist)).countP_le

end Verif.Patch
