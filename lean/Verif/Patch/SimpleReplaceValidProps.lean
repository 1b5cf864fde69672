import Verif.Patch.SimpleReplaceDegree

/-!
# Property C60: replacing a subgraph keeps a Hugr valid
-/
namespace Verif.Patch

open Verif.Graph Verif.Ops Verif.Passes Verif.Validate Verif.Dataflow

variable {Meta : Type} {C C' : Validate.Context} {h r : Hugr Ops.Op Meta} {s : Subgraph} {i o p : Nat}

/-- **C60** Replacing a subgraph that can be seen as one node of its region, by a valid Hugr that `try_new`
accepts, gives a valid Hugr. The replacement has no order links at its input and output, and no type
variables that the subgraph does not have; its constants are well typed where they go. -/
theorem C60_replace_valid (ht : IsTree h) (hv : Valid C h) (htr : IsTree r) (hvr : Valid C' r)
    (hC : C'.types = C.types) (hD : C'.defs = C.defs)
    (hm : Removable h p s) (hs : Separable h p s) (hb : HasBody r i o) (hn : tryNew s h r = .ok)
    (hu : Unordered r i o)
    (hd : ∀ n d, n ∈ s.nodes → DeclsAt h n d → DeclsAt r i d ∨ DeclsAt r i []) {news : List Nat}
    (hlen : news.length = (r.descendants r.entrypoint).length) (hall : Allocated h news) :
    ∃ g map, ∃ f : Nat → Nat, simpleReplace s h r news = .ok g map ∧ (∀ x, Fresh r i o x → map.lookup x = some (f x)) ∧
      IsTree g ∧ ((∀ x t, Fresh r i o x → r.ops x = .const t → C.constOk (f x) = true) → Valid C g) := by
  obtain ⟨ti, t2, rest, hbo, hch, hi, ho, hci, hco, hli, hlo⟩ := hb.children htr hvr
  obtain ⟨g, map, f, h1, h2, h3, h4, h5, h6⟩ := replace_eq ht (valid_linksOk ht hv) htr (valid_linksOk htr hvr) hm
    (entry_kept ht hv hm) hb.region (wired_of ht hv htr hvr hm hb hn) hch hci hco hlen hall
  have z : SwapAt C C' h r g p i o s f := ⟨ht, hv, htr, hvr, hm, hb, hn, h5, h4, hs, hu⟩
  exact ⟨g, map, f, h1, h2, h5, fun hk => z.valid_g h6 hC hD hd hk⟩

/-! ## Examples -/

/-- What is closed under links is not left. -/
theorem region_closed {h : Hugr Ops.Op Meta} {p : Nat} {A : List Nat}
    (hA : ∀ l ∈ h.links, l.src ∈ A → l.dst ∈ A) {a b : Nat} (ha : a ∈ A)
    (hab : Relation.TransGen (RegionEdge h p) a b) : b ∈ A := by
  induction hab with
  | single e =>
    obtain ⟨_, _, l, hl, rfl, rfl⟩ := e
    exact hA l hl ha
  | tail _ e ih =>
    obtain ⟨_, _, l, hl, rfl, rfl⟩ := e
    exact hA l hl ih

theorem twice_separable : Separable (built twiceHistory) 1 twiceCalls where
  noIO n hn := by
    have hn : n = 4 ∨ n = 5 := by simpa [twiceCalls] using hn
    rcases hn with rfl | rfl <;> rintro (⟨_, e⟩ | ⟨_, e⟩) <;> cases e
  convex a b c ha hb hc h1 h2 := by
    have hb' : b ∈ [4, 5, 3] := region_closed (by decide +kernel) (by clear h1; revert a; decide) h1
    have h3 : b = 3 := by
      revert hb' hb; clear h1 h2; simp [twiceCalls]; omega
    subst h3
    have : c ∈ [3] := region_closed (by decide +kernel) (by decide) h2
    clear h1 h2; revert c; decide
  inputs_nodup := by decide
  outputs_nodup := by decide
  enters l hl h1 h2 t ht := by
    have : ∀ l ∈ (built twiceHistory).links, l.src ∉ twiceCalls.nodes → l.dst ∈ twiceCalls.nodes →
        (∃ part ∈ twiceCalls.inputs, (l.dst, l.dstPort) ∈ part) ∨ srcKind (built twiceHistory) l = some (.function ⟨[], bool2⟩) := by
      decide +kernel
    rcases this l hl h1 h2 with h | h
    · exact h
    · rw [ht] at h; cases h
  outside := by decide +kernel
  shared := by decide +kernel
  leaves := by decide +kernel
  linear l hl ho _ ht _ := by
    clear ht
    revert l
    decide +kernel

theorem hand_unordered : Unordered (built handHistory) 5 6 := by
  unfold Unordered
  decide +kernel

theorem hand_decls : DeclsAt (built handHistory) 5 [] := by
  have h1 : DeclsAt (built handHistory) 4 [] :=
    DeclsAt.inside (h := built handHistory) (p := 1) (name := "main") (sig := ⟨[], bool2⟩) rfl rfl
  exact .inherited (p := 4) rfl (by intro _ _ e; cases e) h1

/-- The hypotheses of `C60_replace_valid` are met: the result is valid. -/
example : ∃ g map, simpleReplace twiceCalls (built twiceHistory) (built handHistory) [10, 11, 12, 13, 14, 15, 16] = .ok g map ∧
    Valid anaContext g := by
  obtain ⟨g, map, f, h1, _, _, h2⟩ := C60_replace_valid twice_valid.1 twice_valid.2 hand_valid.1 hand_valid.2 rfl rfl
    twice_removable twice_separable hand_body (by decide +kernel) hand_unordered
    (fun n d hn hd => .inr hand_decls)
    (news := [10, 11, 12, 13, 14, 15, 16]) (by decide +kernel) ⟨by decide, by decide +kernel⟩
  exact ⟨g, map, h1, h2 fun x t hx hop => rfl⟩

/-! ## Findings -/

theorem no_order {g : Hugr Ops.Op Meta} (hg : (g.links.all fun l => decide (srcKind g l ≠ some .stateOrder)) = true)
    {l : Link} (hl : l ∈ g.links) : srcKind g l ≠ some .stateOrder := by
  simpa using List.all_eq_true.1 hg l hl

/-- The DFG node 4, the entrypoint, has a node 7 that uses its input from inside, with an order link from
the input 5. -/
def innerUseHistory : List (Cmd Ops.Op String) :=
  [ .addNodeWithParent 1 0 (.funcDefn "main" ⟨[], bool2⟩),
    .addNodeWithParent 2 1 (.input [bool, bool]), .addNodeWithParent 3 1 (.output [bool, bool]),
    .addNodeWithParent 4 1 (.dfg bool2), .addNodeWithParent 5 4 (.input [bool, bool]),
    .addNodeWithParent 6 4 (.output [bool, bool]), .addNodeWithParent 7 4 (.dfg ⟨[], [bool]⟩),
    .addNodeWithParent 8 7 (.input []), .addNodeWithParent 9 7 (.output [bool]),
    .connect ⟨2, 0, 4, 0⟩, .connect ⟨2, 1, 4, 1⟩, .connect ⟨4, 0, 3, 0⟩, .connect ⟨4, 1, 3, 1⟩,
    .connect ⟨5, 0, 9, 0⟩, .connect ⟨5, 2, 7, 0⟩, .connect ⟨7, 0, 6, 0⟩, .connect ⟨5, 1, 6, 1⟩,
    .setEntrypoint 4 ]

/-- **C60, finding** `SimpleReplacement::try_new` accepts a replacement with order links at its input
(`create_simple_replacement` panics on it). The rewrite loses them; where they were needed, the result is
invalid: here the value from 2 goes into the new node 13 and nothing says that 2 comes before it. -/
theorem C60_order_links_refuted : IsTree (built innerUseHistory) ∧ Valid anaContext (built innerUseHistory) ∧
    HasBody (built innerUseHistory) 5 6 ∧ tryNew twiceCalls (built twiceHistory) (built innerUseHistory) = .ok ∧
    ∃ g map, simpleReplace twiceCalls (built twiceHistory) (built innerUseHistory) [10, 11, 12, 13, 14, 15] = .ok g map ∧
      ∀ C, ¬ Valid C g := by
  obtain ⟨h1, h2⟩ := built_ok innerUseHistory (by decide +kernel) (by decide +kernel)
  refine ⟨h1, (C47_validate_iff_partial _ _ h1 h2).1 (by decide +kernel), ⟨rfl, by decide +kernel, fun l hl => ?_⟩,
    by decide +kernel, _, _, rfl, fun C hv => ?_⟩
  · rw [inside_descendants h1 h1.entry_live, inside_descendants h1 h1.entry_live]
    revert l
    decide +kernel
  · obtain ⟨kind, k1, k2, p, hp, k3⟩ := hv.kinds ⟨2, 0, 15, 0⟩ (by decide +kernel)
    cases k1
    cases hp
    rcases k3 with k3 | ⟨q, a, _, _, ⟨k3, _⟩ | ⟨_, ⟨_, l, hl, _, _, k3⟩ | ⟨g, sig, entry, rest, _, hg, _, hop, _⟩⟩⟩
    · cases k3
    · cases k3
    · exact no_order (by decide +kernel) hl k3
    · cases hg
      cases hop

/-- `main` (1) calls `f` (4) and uses the result twice. -/
def copyHistory : List (Cmd Ops.Op String) :=
  [ .addNodeWithParent 1 0 (.funcDefn "main" ⟨[], bool2⟩),
    .addNodeWithParent 2 1 (.input [bool, bool]), .addNodeWithParent 3 1 (.output [bool, bool]),
    .addNodeWithParent 4 1 (.call ⟨[], ⟨[bool, bool], [bool]⟩⟩ [] ⟨[bool, bool], [bool]⟩),
    .addNodeWithParent 5 0 (.funcDecl "f" ⟨[], ⟨[bool, bool], [bool]⟩⟩),
    .connect ⟨2, 0, 4, 0⟩, .connect ⟨2, 1, 4, 1⟩, .connect ⟨5, 0, 4, 2⟩,
    .connect ⟨4, 0, 3, 0⟩, .connect ⟨4, 0, 3, 1⟩ ]

/-- The call, with its result given twice. -/
def copyCall : Subgraph :=
  { nodes := [4], inputs := [[(4, 0)], [(4, 1)]], outputs := [(4, 0), (4, 0)], functionCalls := [[(4, 2)]] }

/-- **C60, finding** The outputs of a subgraph may name a copyable port twice (`set_outgoing_ports` allows it).
The rewrite then links each of the two values to every use of that port: the result is invalid, both inputs
of the node 3 have two links. -/
theorem C60_repeated_output_refuted : IsTree (built copyHistory) ∧ Valid anaContext (built copyHistory) ∧
    Removable (built copyHistory) 1 copyCall ∧ tryNew copyCall (built copyHistory) (built handHistory) = .ok ∧
    ∃ g map, simpleReplace copyCall (built copyHistory) (built handHistory) [10, 11, 12, 13, 14, 15, 16] = .ok g map ∧
      (g.links.filter fun l => l.dst = 3) = [⟨13, 0, 3, 0⟩, ⟨13, 0, 3, 1⟩, ⟨2, 1, 3, 0⟩, ⟨2, 1, 3, 1⟩] ∧
      ∀ C, ¬ Valid C g := by
  obtain ⟨h1, h2⟩ := built_ok copyHistory (by decide +kernel) (by decide +kernel)
  refine ⟨h1, (C47_validate_iff_partial _ _ h1 h2).1 (by decide +kernel),
    ⟨rfl, by decide, by decide, by decide +kernel, by decide +kernel, by decide, by decide⟩, by decide +kernel, _, _, rfl,
    by decide +kernel, fun C hv => ?_⟩
  have := hv.inDegree 3 0 (.value bool) rfl rfl
  revert this
  unfold InDegreeOk
  decide +kernel

/-- The entrypoint 5 has a node 8 that uses the value of the node 4 outside of it. -/
def reachHistory : List (Cmd Ops.Op String) :=
  [ .addNodeWithParent 1 0 (.funcDefn "main" ⟨[], bool2⟩),
    .addNodeWithParent 2 1 (.input [bool, bool]), .addNodeWithParent 3 1 (.output [bool, bool]),
    .addNodeWithParent 4 1 (.tag 0 [[], []]), .addNodeWithParent 5 1 (.dfg bool2),
    .addNodeWithParent 6 5 (.input [bool, bool]), .addNodeWithParent 7 5 (.output [bool, bool]),
    .addNodeWithParent 8 5 (.dfg bool1), .addNodeWithParent 9 8 (.input [bool]), .addNodeWithParent 10 8 (.output [bool]),
    .connect ⟨2, 0, 5, 0⟩, .connect ⟨2, 1, 5, 1⟩, .connect ⟨5, 0, 3, 0⟩, .connect ⟨5, 1, 3, 1⟩,
    .connect ⟨6, 0, 7, 0⟩, .connect ⟨4, 0, 8, 0⟩, .connect ⟨4, 1, 5, 2⟩, .connect ⟨9, 0, 10, 0⟩, .connect ⟨8, 0, 7, 1⟩,
    .setEntrypoint 5 ]

/-- **C60, finding** A link into the entrypoint of the replacement from outside is dropped: `try_new` accepts the
replacement and the rewrite succeeds, but a node is left without a value. -/
theorem C60_outer_link_refuted : IsTree (built reachHistory) ∧ Valid anaContext (built reachHistory) ∧
    tryNew twiceCalls (built twiceHistory) (built reachHistory) = .ok ∧
    ∃ g map, simpleReplace twiceCalls (built twiceHistory) (built reachHistory) [10, 11, 12, 13, 14, 15] = .ok g map ∧
      ∀ C, ¬ Valid C g := by
  obtain ⟨h1, h2⟩ := built_ok reachHistory (by decide +kernel) (by decide +kernel)
  refine ⟨h1, (C47_validate_iff_partial _ _ h1 h2).1 (by decide +kernel), by decide +kernel, _, _, rfl, fun C hv => ?_⟩
  have := hv.inDegree 13 0 (.value bool) rfl rfl
  revert this
  unfold InDegreeOk
  decide +kernel

end Verif.Patch
