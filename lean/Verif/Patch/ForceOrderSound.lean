import Verif.Patch.SameFlow
import Verif.Patch.InlineFuncsProps
import Verif.Passes.ForceOrderProps

/-!
# C37: forcing an order keeps a Hugr valid and preserves its results
-/
namespace Verif.Patch

open Verif.Graph Verif.Ops Verif.Passes Verif.Validate Verif.Dataflow

variable {Meta W E K : Type} [LinearOrder K] {C : Validate.Context} {h : Hugr Ops.Op Meta}

theorem region_body {op : Ops.Op} :
    Ops.OpTag.isSuperset .dataflowParent op.opTag = true ↔ (body op).isSome = true := by
  cases op <;> simp only [Ops.Op.opTag, body, Option.isSome_some, Option.isSome_none] <;>
    decide +kernel

theorem valid_tagsOk (hv : Valid C h) : TagsOk h := by
  intro n hn hp
  have := hv.tags n hn
  cases hop : h.ops n <;> rw [hop] at hp this <;> simp [Ops.Op.dataflowSignature] at hp
  simp only [Ops.Op.tagOk, decide_eq_true_eq] at this
  split at hp
  · cases hp
  · rename_i hne
    rw [List.getElem?_eq_none_iff] at hne
    omega

theorem valid_portsMatch (hv : Valid C h) : PortsMatch opsInfo.toOpInfo h := by
  intro n hn
  obtain ⟨h1, h2⟩ := hv.ports n hn
  have h3 := hv.tags n hn
  rw [h1, h2]
  constructor
  · change _ = runGet 0 ((h.ops n).portCount .incoming)
    rw [C10_port_count _ _ h3]; rfl
  · change _ = runGet 0 ((h.ops n).portCount .outgoing)
    rw [C10_port_count _ _ h3]; rfl

theorem region_live (ht : IsTree h) {root dp : Nat} (hroot : h.live root = true)
    (hd : IsRegion h root dp) : h.live dp = true := by
  cases hd.1 with
  | refl => exact hroot
  | step hp _ => exact (ht.parent_live _ _ hp).1

theorem valid_ioOk (ht : IsTree h) (hv : Valid C h) {root : Nat} (hroot : h.live root = true) :
    IoOk h root := by
  intro dp hd
  have hb := region_body.1 hd.2
  have hc := hv.children dp (region_live ht hroot hd)
  unfold ChildrenOk at hc
  cases hop : h.ops dp <;> rw [hop] at hc hb <;> simp only [body, Option.isSome_none, Bool.false_eq_true] at hb hc
  all_goals
    obtain ⟨i, o, rest, h1, h2, h3, h4⟩ := hc
    refine ⟨i, o, rest, h1, ⟨_, h2⟩, ⟨_, h3⟩, fun c hc t => ⟨fun e => h4 c hc (.inl ⟨t, e⟩), fun e => h4 c hc (.inr ⟨t, e⟩)⟩⟩

theorem sibling_iff (ht : IsTree h) {p a b : Nat} : SiblingEdge h p a b ↔ RegionEdge h p a b := by
  unfold SiblingEdge RegionEdge
  change _ ↔ a ∈ h.hier.children p ∧ b ∈ h.hier.children p ∧ _
  rw [ht.child_iff, ht.child_iff]

theorem consecutive_mem {l : List Nat} {a b : Nat} (hc : Consecutive l a b) : a ∈ l ∧ b ∈ l := by
  obtain ⟨xs, ys, rfl⟩ := hc
  simp

/-- The link joins the order ports of two nodes of the same dataflow graph. -/
def NewOrder (h : Hugr Ops.Op Meta) (l : Link) : Prop :=
  srcKind h l = some .stateOrder ∧ ((h.ops l.dst).ports .incoming)[l.dstPort]? = some .stateOrder ∧
  ∃ dp, (body (h.ops dp)).isSome = true ∧ h.hier.parent l.src = some dp ∧ h.hier.parent l.dst = some dp

theorem declsAt_links {ls : List Link} {n : Nat} {decls : List Types.Term}
    (hd : DeclsAt { h with links := ls } n decls) : DeclsAt h n decls := by
  induction hd with
  | root => exact .root
  | inside h1 h2 => exact .inside h1 h2
  | inherited h1 h2 _ ih => exact .inherited h1 h2 ih

/-- Order links within dataflow graphs can be added to a valid Hugr if they make no cycles. -/
theorem valid_addOrder (ht : IsTree h) (hv : Valid C h) {new : List Link}
    (hnew : ∀ l ∈ new, NewOrder h l)
    (hac : ∀ p, h.live p = true → (body (h.ops p)).isSome = true →
      NoCycle (RegionEdge { h with links := h.links ++ new } p)) :
    Valid C { h with links := h.links ++ new } := by
  have hcfg : ∀ p sig, h.ops p = .cfg sig →
      RegionEdge { h with links := h.links ++ new } p = RegionEdge h p := by
    intro p sig hp
    funext a b
    apply propext
    constructor
    · rintro ⟨ha, hb, l, hl, h1, h2⟩
      refine ⟨ha, hb, l, ?_, h1, h2⟩
      rcases List.mem_append.1 hl with hl | hl
      · exact hl
      · obtain ⟨_, _, dp, h3, h4, _⟩ := hnew l hl
        have ha' : h.hier.parent a = some p := (ht.child_iff _ _).1 ha
        rw [← h1, h4] at ha'
        cases ha'
        rw [hp] at h3
        cases h3
    · rintro ⟨ha, hb, l, hl, h1, h2⟩
      exact ⟨ha, hb, l, List.mem_append_left _ hl, h1, h2⟩
  refine ⟨hv.tags, hv.ports, hv.contains, hv.children, hv.entrypoint, ?_, hac, hv.constants, ?_, ?_, ?_,
    fun n decls hn hd => hv.types n decls hn (declsAt_links hd), hv.exports⟩
  · intro l hl p sig hp h1 h2
    rcases List.mem_append.1 hl with hl | hl
    · exact hv.blocks l hl p sig hp h1 h2
    · obtain ⟨_, _, dp, h3, h4, _⟩ := hnew l hl
      have ha' : h.hier.parent l.src = some p := (ht.child_iff _ _).1 h1
      rw [h4] at ha'
      cases ha'
      have hp' : h.ops p = .cfg sig := hp
      rw [hp'] at h3
      cases h3
  · intro n port kind hn hk
    have hk' : ((h.ops n).ports .incoming)[port]? = some kind := hk
    by_cases ho : kind = .stateOrder
    · subst ho; trivial
    · have hold := hv.inDegree n port kind hn hk
      have he : linksTo { h with links := h.links ++ new } n port = linksTo h n port := by
        unfold linksTo
        simp only [List.filter_append]
        rw [List.append_right_eq_self, List.filter_eq_nil_iff]
        intro l hl hc
        simp only [Bool.and_eq_true, decide_eq_true_eq] at hc
        obtain ⟨_, h2, _⟩ := hnew l hl
        rw [hc.1, hc.2, hk'] at h2
        exact ho (Option.some.inj h2)
      rw [he]; exact hold
  · intro n port kind hn hk
    have hk' : ((h.ops n).ports .outgoing)[port]? = some kind := hk
    by_cases ho : kind = .stateOrder
    · subst ho; trivial
    · have hold := hv.outDegree n port kind hn hk
      have he : linksFrom { h with links := h.links ++ new } n port = linksFrom h n port := by
        unfold linksFrom
        simp only [List.filter_append]
        rw [List.append_right_eq_self, List.filter_eq_nil_iff]
        intro l hl hc
        simp only [Bool.and_eq_true, decide_eq_true_eq] at hc
        obtain ⟨h2, _, _⟩ := hnew l hl
        unfold srcKind at h2
        rw [hc.1, hc.2, hk'] at h2
        exact ho (Option.some.inj h2)
      rw [he]; exact hold
  · intro l hl
    rcases List.mem_append.1 hl with hl | hl
    · obtain ⟨kind, h1, h2, p, h3, h4⟩ := hv.kinds l hl
      refine ⟨kind, h1, h2, p, h3, ?_⟩
      rcases h4 with h4 | ⟨q, a, h4, h5, h6⟩
      · exact .inl h4
      · refine .inr ⟨q, a, h4, h5, ?_⟩
        rcases h6 with h6 | ⟨h6, h7⟩
        · exact .inl h6
        · refine .inr ⟨h6, ?_⟩
          rcases h7 with ⟨h7, o, ho, h8, h9, h10⟩ | ⟨g, sig, entry, rest, k1, k2, k3, k4, k5, k6⟩
          · exact .inl ⟨h7, o, List.mem_append_left _ ho, h8, h9, h10⟩
          · refine .inr ⟨g, sig, entry, rest, k1, k2, k3, k4, k5, ?_⟩
            rw [hcfg g sig k4]; exact k6
    · obtain ⟨h1, h2, dp, _, h3, h4⟩ := hnew l hl
      exact ⟨.stateOrder, h1, h2, dp, h3, .inl h4⟩

/-- Order links do not matter. -/
theorem order_not_matters {l : Link} (htags : (h.ops l.dst).tagOk = true) (hb : (h.ops l.src).tagOk = true)
    (hn : NewOrder h l) : ¬ Matters h l := by
  obtain ⟨h1, h2, _⟩ := hn
  rintro (hm | hm | ⟨ins, other, rows, hop, hlt⟩)
  · obtain ⟨t, ht⟩ := in_kind htags hm
    rw [h2] at ht; cases ht
  · rcases static_kind hm with ⟨s, hs⟩ | ⟨t, _, hs⟩ <;> rw [h2] at hs <;> cases hs
  · unfold srcKind at h1
    rw [hop] at h1
    have := List.mem_of_getElem? h1
    simp [Op.ports] at this

/-- **C37** Forcing an order in a valid Hugr succeeds, gives a valid Hugr and preserves what its
functions return, whatever the ranks are. -/
theorem C37_valid_results (h : Hugr Ops.Op Meta) (ht : IsTree h) (hv : Valid C h)
    (root : Nat) (hroot : h.live root = true) (rank : Hugr Ops.Op Meta → Nat → K)
    (hrank : ∀ ls, rank { h with links := ls } = rank h) :
    ∃ g, forceOrder h root rank = some g ∧ Valid C g ∧
      ∀ (S : Sem W E) f args outs, Returns g S f args outs ↔ Returns h S f args outs := by
  have hpm := valid_portsMatch hv
  have htag := valid_tagsOk hv
  have hac : ∀ dp, IsRegion h root dp → NoCycle (SiblingEdge h dp) := by
    intro dp hd
    have : SiblingEdge h dp = RegionEdge h dp := by
      funext a b; exact propext (sibling_iff ht)
    rw [this]
    exact hv.acyclic dp (region_live ht hroot hd) (region_body.1 hd.2)
  obtain ⟨new, order, h1, h2, h3⟩ := C37_force_order h ht (valid_linksOk ht hv) hpm htag root hroot
    (valid_ioOk ht hv hroot) hac rank hrank
  have hnew : ∀ l ∈ new, NewOrder h l ∧ ∃ dp, IsRegion h root dp ∧ h.hier.parent l.src = some dp := by
    intro l hm
    obtain ⟨⟨k1, k2⟩, k3, k4, dp, i, o, cs, k5, k6, k7⟩ := h3 l hm
    have hmem : ∀ a, a ∈ i :: (order dp).filter (fun n => CanOrder h n) ++ [o] →
        h.hier.parent a = some dp := by
      intro a ha
      rw [← ht.child_iff, k6]
      have hperm := (h2 dp k5 i o cs k6).1.perm
      simp only [List.cons_append, List.mem_cons, List.mem_append, List.mem_filter, List.not_mem_nil,
        or_false] at ha ⊢
      rcases ha with ha | ha | ha
      · exact .inl ha
      · exact .inr (.inr (hperm.mem_iff.1 ha.1))
      · exact .inr (.inl ha)
    obtain ⟨m1, m2⟩ := consecutive_mem k7
    have p1 := hmem _ m1
    have p2 := hmem _ m2
    have l1 := (ht.parent_live _ _ p1).1
    have l2 := (ht.parent_live _ _ p2).1
    rw [C10_port_kind _ _ (hv.tags _ l1) _ (by rw [← (hv.ports _ l1).2]; exact k3)] at k1
    rw [C10_port_kind _ _ (hv.tags _ l2) _ (by rw [← (hv.ports _ l2).1]; exact k4)] at k2
    refine ⟨⟨?_, ?_, dp, region_body.1 k5.2, p1, p2⟩, dp, k5, p1⟩
    · simpa [srcKind] using k1
    · simpa using k2
  refine ⟨_, h1, valid_addOrder ht hv (fun l hm => (hnew l hm).1) ?_, ?_⟩
  · intro p hp hb
    have ht' : IsTree { h with links := h.links ++ new } :=
      ⟨ht.root_live, ht.entry_live, ht.root_top, ht.has_parent, ht.parent_live, ht.child_iff,
        ht.child_once, ht.reaches_root, ht.in_range⟩
    by_cases hr : IsRegion h root p
    · obtain ⟨i, o, cs, hch, _⟩ := valid_ioOk ht hv hroot p hr
      have := (h2 p hr i o cs hch).2.2.2
      have he : SiblingEdge { h with links := h.links ++ new } p =
          RegionEdge { h with links := h.links ++ new } p := by
        funext a b; exact propext (sibling_iff ht')
      rw [← he]; exact this
    · have he : RegionEdge { h with links := h.links ++ new } p = RegionEdge h p := by
        funext a b
        apply propext
        constructor
        · rintro ⟨ha, hb, l, hl, e1, e2⟩
          refine ⟨ha, hb, l, ?_, e1, e2⟩
          rcases List.mem_append.1 hl with hl | hl
          · exact hl
          · obtain ⟨_, dp, k1, k2⟩ := hnew l hl
            have ha' : h.hier.parent a = some p := (ht.child_iff _ _).1 ha
            rw [← e1, k2] at ha'
            cases ha'
            exact absurd k1 hr
        · rintro ⟨ha, hb, l, hl, e1, e2⟩
          exact ⟨ha, hb, l, List.mem_append_left _ hl, e1, e2⟩
      rw [he]
      exact hv.acyclic p hp hb
  · intro S f args outs
    refine returns_congr (h := h) (g := { h with links := h.links ++ new }) rfl (fun n => rfl) ?_
    intro l hm
    constructor
    · intro hl
      rcases List.mem_append.1 hl with hl | hl
      · exact hl
      · have hn := (hnew l hl).1
        obtain ⟨_, _, dp, _, p1, p2⟩ := hn
        exact absurd hm (order_not_matters (hv.tags _ (ht.parent_live _ _ p2).1)
          (hv.tags _ (ht.parent_live _ _ p1).1) (hnew l hl).1)
    · exact fun hl => List.mem_append_left _ hl

/-- A function with two operations, 4 and 5, that do not depend on each other. -/
def unorderedHistory : List (Cmd Ops.Op String) :=
  [ .addNodeWithParent 1 0 (.funcDefn "main" ⟨[], bool1⟩),
    .addNodeWithParent 2 1 (.input [bool]), .addNodeWithParent 3 1 (.output [bool]),
    .addNodeWithParent 4 1 (.tag 0 [[], []]), .addNodeWithParent 5 1 (.tag 1 [[], []]),
    .connect ⟨4, 0, 3, 0⟩ ]

def unorderedHugr : Hugr Ops.Op String := built unorderedHistory

theorem unordered_valid : IsTree unorderedHugr ∧ Valid anaContext unorderedHugr := by
  obtain ⟨h1, h2⟩ := built_ok unorderedHistory (by decide +kernel) (by decide +kernel)
  exact ⟨h1, (C47_validate_iff_partial _ _ h1 h2).1 (by decide +kernel)⟩

/-- The hypotheses are met, and this is the result if 5 is to come first. -/
example : (∃ g, forceOrder unorderedHugr 0 (fun _ n => if n = 4 then (1 : Int) else 0) = some g ∧
      Valid anaContext g ∧
      ∀ (S : Sem Nat Nat) f args outs, Returns g S f args outs ↔ Returns unorderedHugr S f args outs) ∧
    (forceOrder unorderedHugr 0 (fun _ n => if n = 4 then (1 : Int) else 0)).map (fun g => g.links) =
      some [⟨4, 0, 3, 0⟩, ⟨2, 1, 5, 0⟩, ⟨5, 1, 4, 0⟩] :=
  ⟨C37_valid_results unorderedHugr unordered_valid.1 unordered_valid.2 0 (by decide +kernel) _ (fun _ => rfl),
    by decide +kernel⟩

end Verif.Patch
