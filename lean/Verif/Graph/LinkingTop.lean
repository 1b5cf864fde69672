import Verif.Graph.LinkingPrune

/-!
# Linking: the property theorems

The property is C42 of `/verif/properties.jsonl`.
-/
namespace Verif.Graph

variable {Op Meta : Type}

/-- **C42** `insert_link_view_by_node`. Inconsistent directives are refused, with a reason, and the
host is left as it was. Consistent ones are carried out if the nodes of the host are as they suppose:
the host has the new nodes, except those for which existing ones are used; the replaced nodes are
gone with what was inside; all links of a replaced node come from its replacement, and those of a node
for which an existing one is used from that; nothing else changes. This holds for every order in
which the maps are iterated. As for all insertions of views, a node without metadata keeps what was
left at its index (`C45_stale_metadata_refuted`). -/
theorem C42_link_view (I : OpInfo Op) (host other : Hugr Op Meta) (hth : IsTree host)
    (hlh : LinksOk host) (hto : IsTree other) (hlo : LinksOk other) (parent : Option Nat)
    (children : List (Nat × Directive)) (hnd : (children.map Prod.fst).Nodup)
    (roots : List (Nat × Nat)) (hroots : roots.Perm (linkRoots host other parent children))
    (news : List Nat) (hlen : news.length = (linkNodes other parent children).length)
    (hall : Allocated host news) (order : Transfers → Transfers)
    (horder : ∀ t, (order t).useExisting.Perm t.useExisting ∧ (order t).replace.Perm t.replace) :
    (Consistent other parent children → Targets host other parent children →
      ∃ g map f, host.insertLinkView I other parent children roots news order = .done g map ∧
        Linked host other parent children roots f g ∧ IsTree g ∧ LinksOk g ∧
        (∀ x, Kept other parent children x → map.lookup x = some (f x)) ∧
        (∀ e ∈ uses children, map.lookup e.1 = none) ∧
        ∀ x, Kept other parent children x → g.metadata (f x) =
          if (other.metadata x).getD [] = [] then host.metadata (f x) else other.metadata x) ∧
    (¬ Consistent other parent children →
      ∃ e, host.insertLinkView I other parent children roots news order = .error e host ∧
        e.Explained other parent children) := by
  have hc := checkDirectives_spec hto parent children hnd
  unfold Hugr.insertLinkView
  cases he : checkDirectives other parent children with
  | error e =>
    rw [he] at hc
    simp only at hc ⊢
    exact ⟨fun h => absurd h hc.1, fun _ => ⟨e, rfl, hc.2⟩⟩
  | ok t =>
    rw [he] at hc
    simp only at hc ⊢
    refine ⟨fun hcon htg => ?_, fun h => absurd hc.1 h⟩
    obtain ⟨hbn, hbl, hap⟩ := linkBlocks_ok hto hnd hcon
    have hrk : (roots.map Prod.fst).Perm ((linkBlocks other parent children).map Prod.fst) := by
      rw [← linkRoots_keys host]; exact hroots.map _
    have hins := blocks_insertable (host := host) hto hbn hbl hap hrk
      fun e he => linkRoots_live hth htg (hroots.mem_iff.1 he)
    rw [← linkNodes_eq] at hins
    obtain ⟨h1, map, f, a1, a2, a3, a4, a5, a6⟩ := C45_insert_view_forest_partial I host other hth hlh
      hto hlo _ news roots hlen hins hall
    have hmem := mem_linkNodes hto hnd hcon
    have hch : ∀ x, Kept other parent children x →
        h1.hier.children (f x) = (other.hier.children x).map f := by
      intro x hx
      obtain ⟨b, hb, hb2, hxb⟩ := (kept_iff hto hnd hcon x).1 hx
      rw [a3.node_children x ((hmem x).2 (.inl hx)), linkNodes_eq]
      rw [blocks_children hto hbn hbl hap hrk hb hb2 (blockNodes_above hto (hbl b hb) hxb)]
    obtain ⟨g, map', b1, b2, b3, b4, b5, b6, b7⟩ := link_spec I hth hlh hto hnd hcon htg hroots hmem a3
      a4 a5 hch a2 (t := order t) ((horder t).1.trans hc.2.1) ((horder t).2.trans hc.2.2)
    refine ⟨g, map', f, ?_, b2, b3, b4, b5, b6, ?_⟩
    · rw [a1]; simp only []; rw [b1]
    · intro x hx
      rw [b7 x hx]
      exact a6 x ((hmem x).2 (.inl hx))

/-- **C42** `insert_link_hugr_by_node`: the same, and the metadata is taken over exactly. If a parent
is given, the entrypoint must not be the module root (`C42_whole_module_panics`), and if none is given,
it must not be a child of a node for which an existing one is used (`C42_entrypoint_child_panics`). -/
theorem C42_link_hugr_partial (I : OpInfo Op) (host other : Hugr Op Meta) (hth : IsTree host)
    (hlh : LinksOk host) (hto : IsTree other) (hlo : LinksOk other) (parent : Option Nat)
    (children : List (Nat × Directive)) (hnd : (children.map Prod.fst).Nodup)
    (roots : List (Nat × Nat)) (hroots : roots.Perm (linkRoots host other parent children))
    (news : List Nat) (hlen : news.length = (linkNodes other parent children).length)
    (hall : Allocated host news) (order : Transfers → Transfers)
    (horder : ∀ t, (order t).useExisting.Perm t.useExisting ∧ (order t).replace.Perm t.replace)
    (hentry : parent.isSome → other.entrypoint ≠ other.moduleRoot)
    (hpanic : parent = none → ∀ e ∈ uses children, other.hier.parent other.entrypoint ≠ some e.1) :
    (Consistent other parent children → Targets host other parent children →
      ∃ g map f, host.insertLinkHugr I other parent children roots news order = .done g map ∧
        Linked host other parent children roots f g ∧ IsTree g ∧ LinksOk g ∧
        (∀ x, Kept other parent children x → map.lookup x = some (f x)) ∧
        (∀ e ∈ uses children, map.lookup e.1 = none) ∧
        ∀ x, Kept other parent children x → g.metadata (f x) = other.metadata x) ∧
    (¬ Consistent other parent children →
      ∃ e, host.insertLinkHugr I other parent children roots news order = .error e host ∧
        e.Explained other parent children) := by
  have hc := checkDirectives_spec hto parent children hnd
  unfold Hugr.insertLinkHugr
  cases he : checkDirectives other parent children with
  | error e =>
    rw [he] at hc
    simp only at hc ⊢
    exact ⟨fun h => absurd h hc.1, fun _ => ⟨e, rfl, hc.2⟩⟩
  | ok t =>
    rw [he] at hc
    simp only at hc ⊢
    refine ⟨fun hcon htg => ?_, fun h => absurd hc.1 h⟩
    obtain ⟨o1, h1, ho1⟩ := pruned_start hto hnd hcon hentry hpanic
    obtain ⟨o2, h2, ho2, _, hused⟩ := pruneUsed_ok I hto hnd hcon children (fun _ h => h) ho1
    obtain ⟨nodes, h3, map, f, a1, a2, a3, a4, a5, a6, a7, a8⟩ := insertPruned I hth hlh hto hlo hnd
      hcon htg hroots hlen hall ho2 (fun e he => hused e.1 e.2 (mem_uses.1 he))
    have hmem := mem_linkNodes hto hnd hcon
    obtain ⟨g, map', b1, b2, b3, b4, b5, b6, b7⟩ := link_spec I hth hlh hto hnd hcon htg hroots
      (fun x => (a2 x).trans (hmem x)) a4 a5 a6 a7 a3 (t := order t)
      ((horder t).1.trans hc.2.1) ((horder t).2.trans hc.2.2)
    refine ⟨g, map', f, ?_, b2, b3, b4, b5, b6, ?_⟩
    · rw [h1]; simp only []; rw [h2]; simp only []; rw [a1]; simp only []; rw [b1]
    · intro x hx
      rw [b7 x hx]
      exact a8 x ((a2 x).2 ((hmem x).2 (.inl hx)))

/-- **C42** finding: `insert_link_hugr_by_node` panics whenever a parent is given and the entrypoint is
the module root, although the directives are accepted: it moves the root below itself.
`insert_link_view_by_node` inserts the same graph (`C42_link_view`). -/
theorem C42_whole_module_panics (I : OpInfo Op) (host other : Hugr Op Meta) (hto : IsTree other)
    (p : Nat) (hentry : other.entrypoint = other.moduleRoot) (roots : List (Nat × Nat)) (news : List Nat)
    (order : Transfers → Transfers) : Consistent other (some p) [] ∧
      host.insertLinkHugr I other (some p) [] roots news order = .panic := by
  have hcon : Consistent other (some p) [] := by
    constructor <;> simp [replacements]
  refine ⟨hcon, ?_⟩
  have hc := checkDirectives_spec hto (some p) [] (by simp)
  unfold Hugr.insertLinkHugr
  cases he : checkDirectives other (some p) [] with
  | error e =>
    rw [he] at hc
    exact absurd hcon hc.1
  | ok t =>
    simp only [Option.isSome_some, if_true]
    have hn : other.setParent other.entrypoint other.moduleRoot = none := by
      cases hs : other.setParent other.entrypoint other.moduleRoot with
      | none => rfl
      | some o =>
        exfalso
        have := ((C20_set_parent other hto other.entrypoint other.moduleRoot).1.1 ⟨o, hs⟩).2.2
        rw [hentry] at this
        exact this (.refl _)
    rw [hn]

/-! ### A concrete case -/

/-- A host: nodes 1 and 5 below the module root are used by node 3, and 1 contains 4. -/
def linkHostHistory : List (Cmd Nat String) :=
  [ .addNodeWithParent 1 0 2, .addNodeWithParent 2 0 2, .addNodeWithParent 3 2 2,
    .addNodeWithParent 4 1 1, .addNodeWithParent 5 0 1, .connect ⟨1, 1, 3, 0⟩, .connect ⟨5, 0, 3, 1⟩ ]

/-- A graph to link: nodes 1 and 2 below the module root are used by node 4 inside the entrypoint 3,
node 2 also by node 5 inside node 1. -/
def linkOtherHistory : List (Cmd Nat String) :=
  [ .addNodeWithParent 1 0 2, .addNodeWithParent 2 0 1, .addNodeWithParent 3 0 2,
    .addNodeWithParent 4 3 2, .addNodeWithParent 5 1 1, .addNodeWithParent 6 2 0,
    .connect ⟨1, 0, 4, 0⟩, .connect ⟨2, 0, 4, 1⟩, .connect ⟨2, 0, 5, 0⟩, .setMetadata 5 "k" "v",
    .setEntrypoint 3 ]

/-- Replace node 1 of the host, and use its node 5. -/
def linkChildren : List (Nat × Directive) := [(1, .add [1]), (2, .useExisting 5)]

/-- Host and inserted graph of the examples. -/
def linkPair : Option (Hugr Nat String × Hugr Nat String) :=
  match run demoInfo (Hugr.new demoInfo 0) linkHostHistory,
    run demoInfo (Hugr.new demoInfo 0) linkOtherHistory with
  | some h, some o => some (h, o)
  | _, _ => none

/-- `C20_tree_partial` gives the hypotheses of the theorems for these graphs. -/
example : AllDocumented demoInfo (Hugr.new demoInfo 0) linkHostHistory ∧
    AllDocumented demoInfo (Hugr.new demoInfo 0) linkOtherHistory := by decide +kernel

/-- The hypotheses of `C42_link_view` and `C42_link_hugr_partial` are met. -/
example : ∃ host other, linkPair = some (host, other) ∧ IsTree host ∧ LinksOk host ∧ IsTree other ∧
    LinksOk other ∧ (linkChildren.map Prod.fst).Nodup ∧
    ([6, 7, 8, 9, 10] : List Nat).length = (linkNodes other (some 0) linkChildren).length ∧
    Allocated host [6, 7, 8, 9, 10] ∧ Consistent other (some 0) linkChildren ∧
    Targets host other (some 0) linkChildren ∧ other.entrypoint ≠ other.moduleRoot := by
  have hg : ∃ host other, linkPair = some (host, other) ∧ IsTree host ∧ LinksOk host ∧ IsTree other ∧
      LinksOk other := by
    have h1 := C20_tree_partial demoInfo 0 linkHostHistory _ rfl (by decide +kernel)
    have h2 := C20_tree_partial demoInfo 0 linkOtherHistory _ rfl (by decide +kernel)
    exact ⟨_, _, rfl, h1.1, h1.2, h2.1, h2.2⟩
  obtain ⟨host, other, hp, h1, h2, h3, h4⟩ := hg
  have f1 : linkPair.map (fun d => (d.1.links, d.1.moduleRoot, d.1.entrypoint, d.1.nodes)) =
    some ([⟨1, 1, 3, 0⟩, ⟨5, 0, 3, 1⟩], 0, 0, [0, 1, 2, 3, 4, 5]) := by decide +kernel
  have f2 : linkPair.map (fun d => (d.2.links, d.2.moduleRoot, d.2.entrypoint,
      (linkNodes d.2 (some 0) linkChildren))) =
    some ([⟨1, 0, 4, 0⟩, ⟨2, 0, 4, 1⟩, ⟨2, 0, 5, 0⟩], 0, 3, [3, 4, 1, 5, 2]) := by decide +kernel
  have f3 : linkPair.map (fun d => (d.2.hier.parent 1, d.2.hier.parent 2, d.2.outs 1, d.1.outs 5)) =
    some (some 0, some 0, 2, 1) := by decide +kernel
  have f4 : linkPair.map (fun d => ((List.range 12).map d.1.live)) =
    some ([true, true, true, true, true, true, false, false, false, false, false, false]) := by
    decide +kernel
  have f5 : linkPair.map (fun d => (d.2.hier.onPath d.2.cap d.2.entrypoint 1, d.1.hier.onPath d.1.cap 0 1, d.1.hier.onPath d.1.cap 5 1)) =
    some (false, false, false) := by decide +kernel
  rw [hp] at f1 f2 f3 f4 f5
  simp only [Option.map_some, Option.some.injEq, Prod.mk.injEq] at f1 f2 f3 f5
  obtain ⟨f1, f1r, f1e, _⟩ := f1
  obtain ⟨f2, f2r, f2e, f2n⟩ := f2
  obtain ⟨p1, p2, o1, o5⟩ := f3
  obtain ⟨a1, a2, a3⟩ := f5
  have lv : ∀ n, n < 12 → host.live n = decide (n < 6) := by
    have f4' : (List.range 12).map host.live = (List.range 12).map fun n => decide (n < 6) := by
      rw [Option.map_some, Option.some.injEq] at f4
      rw [f4]; rfl
    intro n hn
    exact List.map_inj_left.1 f4' n (List.mem_range.2 hn)
  have na : ∀ x, host.hier.onPath host.cap x 1 = false → ¬ Above host.hier.parent x 1 := by
    intro x hx ha
    rw [(onPath_iff h1.acyclic h1.bounded x 1).2 ha] at hx
    cases hx
  have hr : replacements linkChildren = [(1, 1)] := rfl
  have hu : uses linkChildren = [(2, 5)] := rfl
  refine ⟨host, other, hp, h1, h2, h3, h4, by decide, by rw [f2n]; rfl, ⟨by decide, ?_⟩, ?_, ?_,
    by rw [f2e, f2r]; decide⟩
  · intro n hn
    have : n < 12 ∧ ¬ n < 6 := by revert hn; revert n; decide
    rw [lv n this.1]; simpa using this.2
  · refine ⟨?_, by decide, ?_, ?_, ?_⟩
    · rw [f2r]
      intro c hc
      have : c = (1, .add [1]) ∨ c = (2, .useExisting 5) := by simpa [linkChildren] using hc
      rcases this with rfl | rfl
      · exact p1
      · exact p2
    · rw [f2e, f2r]; intro _ h; cases h
    · rw [f2e]; intro _; decide
    · intro _ c hc rs hrs ha
      have : c = (1, .add [1]) ∨ c = (2, .useExisting 5) := by simpa [linkChildren] using hc
      rcases this with rfl | rfl
      · rw [(onPath_iff h3.acyclic h3.bounded _ _).2 ha] at a1
        cases a1
      · cases hrs
  · refine ⟨?_, ?_, ?_, ?_, ?_, ?_⟩
    · intro p hp
      cases hp
      refine ⟨by rw [lv 0 (by decide)]; rfl, ?_⟩
      rintro ⟨e, he, ha⟩
      rw [hr, List.mem_singleton] at he
      subst he
      exact na 0 a2 ha
    · intro e he
      rw [hr, List.mem_singleton] at he
      subst he
      rw [f1r, f1e]
      exact ⟨by rw [lv 1 (by decide)]; rfl, by decide, na 0 a2⟩
    · intro e he d hd _
      rw [hr, List.mem_singleton] at he hd
      rw [he, hd]
    · intro e he
      rw [hu, List.mem_singleton] at he
      subst he
      refine ⟨by rw [lv 5 (by decide)]; rfl, ?_⟩
      intro d hd ha
      rw [hr, List.mem_singleton] at hd
      subst hd
      exact absurd ha (na 5 a3)
    · unfold Hugr.linkedOutputs
      rw [hr, f1]
      intro e he
      rw [List.mem_singleton] at he
      subst he
      rw [o1]
      decide
    · unfold Hugr.linkedOutputs
      rw [hu, hr, f2]
      intro e he
      rw [List.mem_singleton] at he
      subst he
      rw [o5]
      intro l hl hs
      have : l = ⟨1, 0, 4, 0⟩ ∨ l = ⟨2, 0, 4, 1⟩ ∨ l = ⟨2, 0, 5, 0⟩ := by simpa using hl
      rcases this with rfl | rfl | rfl
      · cases hs
      · exact ⟨rfl, by decide, by intro sn h; simp at h⟩
      · exact ⟨rfl, by decide, by intro sn h; simp at h⟩

/-- The host after linking: nodes, children of the module root, links and the map. Node 3 now uses the
copy 8 of node 1, and so does the copy 7 of node 4; node 5 of the host is used by the copies 7 and 9 of
nodes 4 and 5, and the copy 10 of node 2 is gone. -/
example : linkPair.map (fun d => match d.1.insertLinkHugr demoInfo d.2 (some 0) linkChildren
        [(3, 0), (1, 0), (2, 0)] [6, 7, 8, 9, 10] id with
      | .done h map => (h.nodes, h.children 0, h.links, map)
      | _ => ([], [], [], [])) =
    some ([0, 2, 3, 5, 6, 7, 8, 9], [2, 5, 6, 8],
      [⟨5, 0, 3, 1⟩, ⟨8, 0, 7, 0⟩, ⟨5, 0, 7, 1⟩, ⟨5, 0, 9, 0⟩, ⟨8, 1, 3, 0⟩],
      [(5, 9), (1, 8), (4, 7), (3, 6)]) := by decide +kernel

/-- The same for a view. -/
example : linkPair.map (fun d => match d.1.insertLinkView demoInfo d.2 (some 0) linkChildren
        [(3, 0), (1, 0), (2, 0)] [6, 7, 8, 9, 10] id with
      | .done h map => (h.nodes, h.children 0, h.links, map)
      | _ => ([], [], [], [])) =
    some ([0, 2, 3, 5, 6, 7, 8, 9], [2, 5, 6, 8],
      [⟨5, 0, 3, 1⟩, ⟨8, 0, 7, 0⟩, ⟨5, 0, 7, 1⟩, ⟨5, 0, 9, 0⟩, ⟨8, 1, 3, 0⟩],
      [(5, 9), (1, 8), (4, 7), (3, 6)]) := by decide +kernel

/-- Directives that are refused: for a node inside the entrypoint, to add a node around the
entrypoint, and two replacements of the same node. -/
example : linkPair.map (fun d => (match checkDirectives d.2 (some 0) [(4, .add [])] with
        | .error (.notChildOfRoot 4) => true
        | _ => false,
      match checkDirectives d.2 (some 0) [(3, .add [])] with
        | .error (.childContainsEntrypoint 3) => true
        | _ => false,
      match checkDirectives d.2 (some 0) [(1, .add [5]), (2, .add [5])] with
        | .error (.nodeMultiplyReplaced 5 _ _) => true
        | _ => false)) = some (true, true, true) := by decide +kernel

/-! ### What goes wrong -/

/-- **C42** finding: `insert_link_hugr_by_node` panics although the directives are accepted, if the
entrypoint is a child of a node for which an existing one is used: it removes the children of that
node, but the entrypoint cannot be removed. `insert_link_view_by_node` does it. -/
theorem C42_entrypoint_child_panics :
    ∃ (host other : Hugr Nat String) (t : Transfers), IsTree host ∧ IsTree other ∧
      other.hier.parent 1 = some other.moduleRoot ∧ other.hier.parent other.entrypoint = some 1 ∧
      host.live 1 = true ∧ checkDirectives other none [(1, .useExisting 1)] = .ok t ∧
      host.insertLinkHugr demoInfo other none [(1, .useExisting 1)] [(1, 0)] [2] id = .panic ∧
      ∃ g map, host.insertLinkView demoInfo other none [(1, .useExisting 1)] [(1, 0)] [2] id =
        .done g map := by
  have h1 := C20_tree_partial (Meta := String) demoInfo 0 [.addNodeWithParent 1 0 2] _ rfl (by decide +kernel)
  have h2 := C20_tree_partial (Meta := String) demoInfo 0 [.addNodeWithParent 1 0 2,
    .addNodeWithParent 2 1 2, .setEntrypoint 2] _ rfl (by decide +kernel)
  exact ⟨_, _, _, h1.1, h2.1, by decide +kernel, by decide +kernel, by decide +kernel, rfl, rfl, _, _, rfl⟩

/-- **C42** finding: the nodes of the host are not checked. To use a node that is not there panics
after the host has been changed. -/
theorem C42_missing_target_panics :
    ∃ (host other : Hugr Nat String) (t : Transfers), IsTree host ∧ IsTree other ∧
      host.live 9 = false ∧ checkDirectives other none [(1, .useExisting 9), (2, .add [])] = .ok t ∧
      host.insertLinkView demoInfo other none [(1, .useExisting 9), (2, .add [])] [(1, 0), (2, 0)]
        [1, 2] id = .panic := by
  have h1 := C20_tree_partial (Meta := String) demoInfo 0 [] _ rfl (by decide +kernel)
  have h2 := C20_tree_partial (Meta := String) demoInfo 0 [.addNodeWithParent 1 0 2,
    .addNodeWithParent 2 0 2, .connect ⟨1, 0, 2, 0⟩] _ rfl (by decide +kernel)
  exact ⟨_, _, _, h1.1, h2.1, by decide +kernel, rfl, rfl⟩

/-- **C42** finding: if a replaced node is inside another one, the order in which the map is iterated
decides between success and a panic. -/
theorem C42_nested_refuted :
    ∃ (host other g : Hugr Nat String) (map : List (Nat × Nat)), IsTree host ∧ IsTree other ∧
      host.insertLinkView demoInfo other none [(1, .add [1, 2])] [(1, 0)] [3]
        (fun t => { t with replace := [(2, 1), (1, 1)] }) = .done g map ∧
      host.insertLinkView demoInfo other none [(1, .add [1, 2])] [(1, 0)] [3]
        (fun t => { t with replace := [(1, 1), (2, 1)] }) = .panic ∧
      ∃ t, checkDirectives other none [(1, .add [1, 2])] = .ok t ∧
        t.replace.Perm [(2, 1), (1, 1)] := by
  have h1 := C20_tree_partial (Meta := String) demoInfo 0 [.addNodeWithParent 1 0 2,
    .addNodeWithParent 2 1 2] _ rfl (by decide +kernel)
  have h2 := C20_tree_partial (Meta := String) demoInfo 0 [.addNodeWithParent 1 0 2] _ rfl (by decide +kernel)
  refine ⟨_, _, _, _, h1.1, h2.1, rfl, rfl, _, rfl, ?_⟩
  decide +kernel

/-- **C42** finding: if the parent is inside a replaced node, what has just been inserted is removed
again, and yet the returned map has it. -/
theorem C42_parent_replaced_refuted :
    ∃ (host other g : Hugr Nat String) (map : List (Nat × Nat)), IsTree host ∧ IsTree other ∧
      host.insertLinkView demoInfo other (some 1) [(1, .add [1])] [(2, 1), (1, 0)] [3, 4] id =
        .done g map ∧
      map.lookup other.entrypoint = some 3 ∧ g.live 3 = false := by
  have h1 := C20_tree_partial (Meta := String) demoInfo 0 [.addNodeWithParent 1 0 2] _ rfl (by decide +kernel)
  have h2 := C20_tree_partial (Meta := String) demoInfo 0 [.addNodeWithParent 1 0 2,
    .addNodeWithParent 2 0 2, .setEntrypoint 2] _ rfl (by decide +kernel)
  exact ⟨_, _, _, _, h1.1, h2.1, rfl, by decide +kernel, by decide +kernel⟩

end Verif.Graph
