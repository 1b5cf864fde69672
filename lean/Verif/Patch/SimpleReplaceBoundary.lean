import Verif.Patch.SimpleReplaceUnpack

/-!
# The edges across the boundary
-/
namespace Verif.Patch

open Verif.Graph Verif.Ops Verif.Passes Verif.Validate Verif.Dataflow

variable {Meta : Type} {C C' : Validate.Context} {h r : Hugr Ops.Op Meta} {s : Subgraph} {i o : Nat}

/-- Every input of the subgraph has a source, and so has every output of the replacement. -/
structure Wired (h r : Hugr Ops.Op Meta) (s : Subgraph) (i o : Nat) : Prop where
  source : ∀ part ∈ s.inputs, ∃ n np rest a ap, part = (n, np) :: rest ∧
    singleLinkedOutput h n np = some (a, ap) ∧ ∀ a' ap', ⟨a', ap', n, np⟩ ∈ h.links ↔ a' = a ∧ ap' = ap
  result : ∀ j, j < s.outputs.length → ∃ x xp, singleLinkedOutput r o j = some (x, xp) ∧
    (∀ x' xp', ⟨x', xp', o, j⟩ ∈ r.links ↔ x' = x ∧ xp' = xp) ∧ (x = i → xp < s.inputs.length)
  through : ∀ k j, k < s.inputs.length → ⟨i, k, o, j⟩ ∈ r.links → j < s.outputs.length
  start : ∀ k x xp, ⟨i, k, x, xp⟩ ∈ r.links → x ≠ o → Fresh r i o x
  stop : ∀ x xp j, ⟨x, xp, o, j⟩ ∈ r.links → x ≠ i → Fresh r i o x

def BPort.node (f : Nat → Nat) : BPort → Nat
  | .host n _ => n
  | .repl n _ => f n
def BPort.port : BPort → Nat
  | .host _ p => p
  | .repl _ p => p

/-- The link that an edge becomes. -/
def edgeLink (f : Nat → Nat) (e : BPort × BPort) : Link := ⟨e.1.node f, e.1.port, e.2.node f, e.2.port⟩

/-- The source of an input, and of an output. -/
def srcAt (h : Hugr Ops.Op Meta) (part : List (Nat × Nat)) : BPort :=
  .host ((inputSource h part).getD (0, 0)).1 ((inputSource h part).getD (0, 0)).2
def resAt (s : Subgraph) (h r : Hugr Ops.Op Meta) (i o j : Nat) : BPort :=
  (outputSource s h r i o j).getD (.host 0 0)

def inEdges (s : Subgraph) (h r : Hugr Ops.Op Meta) (i o : Nat) (part : List (Nat × Nat) × Nat) : List (BPort × BPort) :=
  ((r.linkedInputs i part.2).filter fun t => t.1 ≠ o).map fun t => (srcAt h part.1, .repl t.1 t.2)
def outEdges (s : Subgraph) (h r : Hugr Ops.Op Meta) (i o : Nat) (np : (Nat × Nat) × Nat) : List (BPort × BPort) :=
  (h.linkedInputs np.1.1 np.1.2).map fun t => (resAt s h r i o np.2, .host t.1 t.2)

def BPort.isRepl : BPort → Bool
  | .host .. => false
  | .repl .. => true

def boundary (s : Subgraph) (h r : Hugr Ops.Op Meta) (i o : Nat) : List (BPort × BPort) :=
  s.inputs.zipIdx.flatMap (inEdges s h r i o) ++
  s.outputs.zipIdx.flatMap (fun np => if (resAt s h r i o np.2).isRepl then outEdges s h r i o np else []) ++
  s.outputs.zipIdx.flatMap (fun np => if (resAt s h r i o np.2).isRepl then [] else outEdges s h r i o np)

theorem inputSource_eq (hw : Wired h r s i o) {part : List (Nat × Nat)} (hp : part ∈ s.inputs) :
    ∃ n np rest a ap, part = (n, np) :: rest ∧ inputSource h part = some (a, ap) ∧
      srcAt h part = .host a ap ∧ ∀ a' ap', ⟨a', ap', n, np⟩ ∈ h.links ↔ a' = a ∧ ap' = ap := by
  obtain ⟨n, np, rest, a, ap, rfl, h1, h2⟩ := hw.source part hp
  have : inputSource h ((n, np) :: rest) = some (a, ap) := h1
  refine ⟨n, np, rest, a, ap, rfl, this, ?_, h2⟩
  unfold srcAt
  rw [this]; rfl

theorem outputSource_eq (hw : Wired h r s i o) {j : Nat} (hj : j < s.outputs.length) :
    outputSource s h r i o j = some (resAt s h r i o j) ∧
    ((∃ x xp, x ≠ i ∧ resAt s h r i o j = .repl x xp ∧ ∀ x' xp', ⟨x', xp', o, j⟩ ∈ r.links ↔ x' = x ∧ xp' = xp) ∨
     ∃ k part, s.inputs[k]? = some part ∧ part ∈ s.inputs ∧ resAt s h r i o j = srcAt h part ∧
       ∀ x' xp', ⟨x', xp', o, j⟩ ∈ r.links ↔ x' = i ∧ xp' = k) := by
  obtain ⟨x, xp, h1, h2, h3⟩ := hw.result j hj
  by_cases hx : x = i
  · subst hx
    have hk := h3 rfl
    have hpart : s.inputs[xp]? = some s.inputs[xp] := List.getElem?_eq_getElem hk
    obtain ⟨n, np, rest, a, ap, e1, e2, e3, e4⟩ := inputSource_eq hw (List.mem_of_getElem? hpart)
    have : outputSource s h r x o j = some (.host a ap) := by
      unfold outputSource
      rw [h1]
      simp only [if_true, hpart, e2]; rfl
    have hr : resAt s h r x o j = .host a ap := by unfold resAt; rw [this]; rfl
    refine ⟨by rw [this, hr], .inr ⟨xp, _, hpart, List.mem_of_getElem? hpart, by rw [hr, e3], h2⟩⟩
  · have : outputSource s h r i o j = some (.repl x xp) := by
      unfold outputSource
      rw [h1]
      simp only [if_neg hx]
    have hr : resAt s h r i o j = .repl x xp := by unfold resAt; rw [this]; rfl
    exact ⟨by rw [this, hr], .inl ⟨x, xp, hx, hr, h2⟩⟩

theorem zipIdx_mem {α : Type} {xs : List α} {x : α × Nat} (hx : x ∈ xs.zipIdx) :
    xs[x.2]? = some x.1 ∧ x.2 < xs.length := by
  have := List.mem_zipIdx_iff_getElem?.1 hx
  exact ⟨this, (List.getElem?_eq_some_iff.1 this).1⟩

theorem allBoundaryEdges_eq (hw : Wired h r s i o) :
    allBoundaryEdges s h r i o = some (boundary s h r i o) := by
  unfold allBoundaryEdges
  rw [collect_eq (F := inEdges s h r i o), collect_eq (F := fun np =>
      if (resAt s h r i o np.2).isRepl then outEdges s h r i o np else []), collect_eq (F := fun np =>
      if (resAt s h r i o np.2).isRepl then [] else outEdges s h r i o np)]
  · rfl
  · intro np hnp
    obtain ⟨_, hlt⟩ := zipIdx_mem hnp
    obtain ⟨e, hc⟩ := outputSource_eq hw hlt
    unfold hostToHostAt
    rw [e]
    unfold outEdges
    cases resAt s h r i o np.2 <;> rfl
  · intro np hnp
    obtain ⟨_, hlt⟩ := zipIdx_mem hnp
    obtain ⟨e, hc⟩ := outputSource_eq hw hlt
    unfold outgoingAt
    rw [e]
    unfold outEdges
    cases resAt s h r i o np.2 <;> rfl
  · intro part hpart
    obtain ⟨hm, hlt⟩ := zipIdx_mem hpart
    obtain ⟨n, np, rest, a, ap, e1, e2, e3, e4⟩ := inputSource_eq hw (List.mem_of_getElem? hm)
    unfold incomingAt
    rw [e2]
    simp only []
    rw [if_pos]
    · unfold inEdges
      rw [e3]
    · rw [List.all_eq_true]
      intro t ht
      rw [mem_linkedInputs] at ht
      by_cases hto : t.1 = o
      · rw [hto] at ht
        simp [hto, hw.through _ _ hlt ht]
      · simp [hto]

/-- What the edges are. -/
theorem mem_boundary (hw : Wired h r s i o) (e : BPort × BPort) : e ∈ boundary s h r i o ↔
    (∃ k n np rest a ap x xp, s.inputs[k]? = some ((n, np) :: rest) ∧ ⟨a, ap, n, np⟩ ∈ h.links ∧
      ⟨i, k, x, xp⟩ ∈ r.links ∧ x ≠ o ∧ e = (.host a ap, .repl x xp)) ∨
    (∃ j n np x xp b bp, s.outputs[j]? = some (n, np) ∧ ⟨n, np, b, bp⟩ ∈ h.links ∧
      ⟨x, xp, o, j⟩ ∈ r.links ∧ x ≠ i ∧ e = (.repl x xp, .host b bp)) ∨
    ∃ k j n np rest a ap m mp b bp, s.inputs[k]? = some ((n, np) :: rest) ∧ ⟨a, ap, n, np⟩ ∈ h.links ∧
      ⟨i, k, o, j⟩ ∈ r.links ∧ s.outputs[j]? = some (m, mp) ∧ ⟨m, mp, b, bp⟩ ∈ h.links ∧
      e = (.host a ap, .host b bp) := by
  unfold boundary
  rw [List.mem_append, List.mem_append, or_assoc]
  refine or_congr ?_ (or_congr ?_ ?_)
  · rw [List.mem_flatMap]
    constructor
    · rintro ⟨part, hpart, he⟩
      obtain ⟨hm, hlt⟩ := zipIdx_mem hpart
      obtain ⟨n, np, rest, a, ap, e1, e2, e3, e4⟩ := inputSource_eq hw (List.mem_of_getElem? hm)
      unfold inEdges at he
      obtain ⟨t, ht, rfl⟩ := List.mem_map.1 he
      obtain ⟨ht1, ht2⟩ := List.mem_filter.1 ht
      rw [mem_linkedInputs] at ht1
      refine ⟨part.2, n, np, rest, a, ap, t.1, t.2, by rw [hm, e1], (e4 a ap).2 ⟨rfl, rfl⟩, ht1,
        by simpa using ht2, by rw [e3]⟩
    · rintro ⟨k, n, np, rest, a, ap, x, xp, hk, hl, hrl, hxo, rfl⟩
      refine ⟨(((n, np) :: rest), k), List.mem_zipIdx_iff_getElem?.2 hk, ?_⟩
      obtain ⟨n', np', rest', a', ap', e1, e2, e3, e4⟩ := inputSource_eq hw (List.mem_of_getElem? hk)
      cases e1
      obtain ⟨rfl, rfl⟩ := (e4 a ap).1 hl
      refine List.mem_map.2 ⟨(x, xp), List.mem_filter.2 ⟨mem_linkedInputs.2 hrl, by simpa using hxo⟩, ?_⟩
      rw [e3]
  · rw [List.mem_flatMap]
    constructor
    · rintro ⟨np, hnp, he⟩
      obtain ⟨hm, hlt⟩ := zipIdx_mem hnp
      obtain ⟨_, ⟨x, xp, hx, hres, hu⟩ | ⟨k, part, hk, hpm, hres, hu⟩⟩ := outputSource_eq hw hlt
      · rw [hres, if_pos (by simp [BPort.isRepl])] at he
        obtain ⟨t, ht, rfl⟩ := List.mem_map.1 he
        rw [mem_linkedInputs] at ht
        exact ⟨np.2, np.1.1, np.1.2, x, xp, t.1, t.2, hm, ht, (hu x xp).2 ⟨rfl, rfl⟩, hx, by rw [hres]⟩
      · obtain ⟨_, _, _, a, ap, _, _, e3, _⟩ := inputSource_eq hw hpm
        rw [hres, e3, if_neg (by simp [BPort.isRepl])] at he
        cases he
    · rintro ⟨j, n, np, x, xp, b, bp, hj, hl, hrl, hxi, rfl⟩
      have hlt := (List.getElem?_eq_some_iff.1 hj).1
      refine ⟨((n, np), j), List.mem_zipIdx_iff_getElem?.2 hj, ?_⟩
      obtain ⟨_, ⟨x', xp', hx, hres, hu⟩ | ⟨k, part, hk, hpm, hres, hu⟩⟩ := outputSource_eq hw hlt
      · obtain ⟨rfl, rfl⟩ := (hu x xp).1 hrl
        rw [hres, if_pos (by simp [BPort.isRepl])]
        exact List.mem_map.2 ⟨(b, bp), mem_linkedInputs.2 hl, by rw [hres]⟩
      · exact absurd ((hu x xp).1 hrl).1 hxi
  · rw [List.mem_flatMap]
    constructor
    · rintro ⟨np, hnp, he⟩
      obtain ⟨hm, hlt⟩ := zipIdx_mem hnp
      obtain ⟨_, ⟨x, xp, hx, hres, hu⟩ | ⟨k, part, hk, hpm, hres, hu⟩⟩ := outputSource_eq hw hlt
      · rw [hres, if_pos (by simp [BPort.isRepl])] at he
        cases he
      · obtain ⟨n', np', rest, a, ap, e1, e2, e3, e4⟩ := inputSource_eq hw hpm
        rw [hres, e3, if_neg (by simp [BPort.isRepl])] at he
        obtain ⟨t, ht, rfl⟩ := List.mem_map.1 he
        rw [mem_linkedInputs] at ht
        exact ⟨k, np.2, n', np', rest, a, ap, np.1.1, np.1.2, t.1, t.2, by rw [hk, e1], (e4 a ap).2 ⟨rfl, rfl⟩,
          (hu i k).2 ⟨rfl, rfl⟩, hm, ht, by rw [hres, e3]⟩
    · rintro ⟨k, j, n, np, rest, a, ap, m, mp, b, bp, hk, hl, hrl, hj, hlm, rfl⟩
      have hlt := (List.getElem?_eq_some_iff.1 hj).1
      refine ⟨((m, mp), j), List.mem_zipIdx_iff_getElem?.2 hj, ?_⟩
      obtain ⟨_, ⟨x', xp', hx, hres, hu⟩ | ⟨k', part, hk', hpm, hres, hu⟩⟩ := outputSource_eq hw hlt
      · exact absurd ((hu i k).1 hrl).1.symm hx
      · obtain ⟨_, rfl⟩ := (hu i k).1 hrl
        rw [hk] at hk'
        cases hk'
        obtain ⟨n', np', rest', a', ap', e1, e2, e3, e4⟩ := inputSource_eq hw hpm
        cases e1
        obtain ⟨rfl, rfl⟩ := (e4 a ap).1 hl
        rw [hres, e3, if_neg (by simp [BPort.isRepl])]
        exact List.mem_map.2 ⟨(b, bp), mem_linkedInputs.2 hlm, by rw [hres, e3]⟩

theorem edge_newLink (hw : Wired h r s i o) (f : Nat → Nat) (l : Link) :
    ((∃ e ∈ boundary s h r i o, edgeLink f e = l) ∧ l.src ∉ s.nodes ∧ l.dst ∉ s.nodes) ↔
      (∃ k a ap x xp, Feeds h s k a ap ∧ ⟨i, k, x, xp⟩ ∈ r.links ∧ x ≠ o ∧ l = ⟨a, ap, f x, xp⟩ ∧
        f x ∉ s.nodes) ∨
      (∃ x xp j b bp, ⟨x, xp, o, j⟩ ∈ r.links ∧ x ≠ i ∧ Uses h s j b bp ∧ l = ⟨f x, xp, b, bp⟩ ∧
        f x ∉ s.nodes) ∨
      ∃ k j a ap b bp, ⟨i, k, o, j⟩ ∈ r.links ∧ Feeds h s k a ap ∧ Uses h s j b bp ∧ l = ⟨a, ap, b, bp⟩ := by
  constructor
  · rintro ⟨⟨e, he, rfl⟩, h1, h2⟩
    rcases (mem_boundary hw e).1 he with ⟨k, n, np, rest, a, ap, x, xp, g1, g2, g3, g4, rfl⟩ |
      ⟨j, n, np, x, xp, b, bp, g1, g2, g3, g4, rfl⟩ | ⟨k, j, n, np, rest, a, ap, m, mp, b, bp, g1, g2, g3, g4, g5, rfl⟩
    · exact .inl ⟨k, a, ap, x, xp, ⟨n, np, rest, g1, g2, h1⟩, g3, g4, rfl, h2⟩
    · exact .inr (.inl ⟨x, xp, j, b, bp, g3, g4, ⟨n, np, g1, g2, h2⟩, rfl, h1⟩)
    · exact .inr (.inr ⟨k, j, a, ap, b, bp, g3, ⟨n, np, rest, g1, g2, h1⟩, ⟨m, mp, g4, g5, h2⟩, rfl⟩)
  · rintro (⟨k, a, ap, x, xp, ⟨n, np, rest, g1, g2, h1⟩, g3, g4, rfl, h2⟩ |
      ⟨x, xp, j, b, bp, g3, g4, ⟨n, np, g1, g2, h2⟩, rfl, h1⟩ |
      ⟨k, j, a, ap, b, bp, g3, ⟨n, np, rest, g1, g2, h1⟩, ⟨m, mp, g4, g5, h2⟩, rfl⟩)
    · exact ⟨⟨(.host a ap, .repl x xp), (mem_boundary hw _).2 (.inl ⟨k, n, np, rest, a, ap, x, xp, g1, g2, g3, g4, rfl⟩),
        rfl⟩, h1, h2⟩
    · exact ⟨⟨(.repl x xp, .host b bp), (mem_boundary hw _).2
        (.inr (.inl ⟨j, n, np, x, xp, b, bp, g1, g2, g3, g4, rfl⟩)), rfl⟩, h1, h2⟩
    · exact ⟨⟨(.host a ap, .host b bp), (mem_boundary hw _).2
        (.inr (.inr ⟨k, j, n, np, rest, a, ap, m, mp, b, bp, g1, g2, g3, g4, g5, rfl⟩)), rfl⟩, h1, h2⟩

/-- The links after the replacement, as often as they are there. -/
def replacedLinks (h r : Hugr Ops.Op Meta) (s : Subgraph) (i o : Nat) (f : Nat → Nat) : List Link :=
  (h.links ++ (r.links.filter fun l => l.src ∈ freshNodes r i o && l.dst ∈ freshNodes r i o).map (Link.rename f) ++
    (boundary s h r i o).map (edgeLink f)).filter fun l => l.src ∉ s.nodes && l.dst ∉ s.nodes

theorem replace_eq (ht : IsTree h) (hl : LinksOk h) (htr : IsTree r) (hlr : LinksOk r) {p : Nat}
    (hm : Removable h p s) (hne : h.entrypoint ∉ s.nodes) (hb : (body (r.ops r.entrypoint)).isSome = true)
    (hw : Wired h r s i o) {rest : List Nat} (hch : r.children r.entrypoint = i :: o :: rest)
    (hci : r.children i = []) (hco : r.children o = []) {news : List Nat}
    (hlen : news.length = (r.descendants r.entrypoint).length) (hall : Allocated h news) :
    ∃ g map f, simpleReplace s h r news = .ok g map ∧
      (∀ x, Fresh r i o x → map.lookup x = some (f x)) ∧
      (∀ x, x = i ∨ x = o ∨ x = r.entrypoint → map.lookup x = none) ∧
      Replaced h r p i o s f g ∧ IsTree g ∧ g.links.Perm (replacedLinks h r s i o f) := by
  obtain ⟨n0, hn0⟩ : ∃ n, n ∈ s.nodes := by
    cases hs : s.nodes with
    | nil => exact absurd hs hm.nonempty
    | cons a _ => exact ⟨a, by simp⟩
  have hp : h.live p = true := (ht.parent_live _ _ (hm.parent n0 hn0)).2
  obtain ⟨u, map, f, hu, hmap, hmap', U⟩ := unpack_eq ht hl htr hlr hp hch hci hco hlen hall
  have hlive : ∀ n ∈ s.nodes, h.live n = true := fun n hn => (ht.parent_live _ _ (hm.parent n hn)).1
  have hpn : p ∉ s.nodes := fun hp' => ht.acyclic _ _ (hm.parent p hp') (.refl _)
  have hrt : h.moduleRoot ∉ s.nodes := by
    intro hr
    have := hm.parent _ hr
    rw [ht.root_top] at this; cases this
  have hfx : ∀ x, Fresh r i o x → f x ∉ s.nodes := by
    intro x hx hn
    have := hlive _ hn
    rw [U.fresh x hx] at this; cases this
  -- the check
  have hcheck : isValidRewrite s h = .ok p := by
    have hgp : ∀ n ∈ s.nodes, h.getParent n = some p := by
      intro n hn
      unfold Hugr.getParent
      rw [if_pos]
      · exact hm.parent n hn
      · have : n ≠ h.moduleRoot := by rintro rfl; exact hrt hn
        simp [hlive n hn, this]
    unfold isValidRewrite
    have : s.getParent h = some p := by
      unfold Subgraph.getParent
      cases hs : s.nodes with
      | nil => exact absurd hs hm.nonempty
      | cons a _ => exact hgp a (by rw [hs]; simp)
    rw [this]
    simp only []
    rw [if_pos (region_body.2 hm.region), if_pos]
    rw [List.all_eq_true]
    intro n hn
    simp [hgp n hn, hm.leaf n hn]
  have hio : getIo r r.entrypoint = some (i, o) := by
    unfold getIo
    rw [if_pos (region_body.2 hb), hch]
  -- connecting
  have hstart : ∀ a ap n np, ⟨a, ap, n, np⟩ ∈ h.links → CanStart u a ap ∧ CanEnd u n np := by
    intro a ap n np hl'
    obtain ⟨b1, b2, b3, b4⟩ := hl _ hl'
    refine ⟨⟨(U.live a).2 (.inl b1), ?_⟩, ⟨(U.live n).2 (.inl b3), ?_⟩⟩
    · rw [(U.host a b1).2.2.1]; exact b2
    · rw [(U.host n b3).2.1]; exact b4
  have hfresh : ∀ a ap n np, ⟨a, ap, n, np⟩ ∈ r.links → (Fresh r i o a → CanStart u (f a) ap) ∧
      (Fresh r i o n → CanEnd u (f n) np) := by
    intro a ap n np hl'
    obtain ⟨b1, b2, b3, b4⟩ := hlr _ hl'
    refine ⟨fun hx => ⟨(U.live _).2 (.inr ⟨a, hx, rfl⟩), ?_⟩, fun hx => ⟨(U.live _).2 (.inr ⟨n, hx, rfl⟩), ?_⟩⟩
    · rw [(U.node a hx).2.2.1]; exact b2
    · rw [(U.node n hx).2.1]; exact b4
  have hconn := connectBoundary_each (map := map) (es := boundary s h r i o) (h := u) (F := edgeLink f) (by
    intro e he
    rcases (mem_boundary hw e).1 he with ⟨k, n, np, rest, a, ap, x, xp, g1, g2, g3, g4, rfl⟩ |
      ⟨j, n, np, x, xp, b, bp, g1, g2, g3, g4, rfl⟩ | ⟨k, j, n, np, rest, a, ap, m, mp, b, bp, g1, g2, g3, g4, g5, rfl⟩
    · have hx := hw.start k x xp g3 g4
      refine ⟨rfl, ?_, (hstart _ _ _ _ g2).1, (hfresh _ _ _ _ g3).2 hx⟩
      simp only [BPort.resolve, hmap x hx]; rfl
    · have hx := hw.stop x xp j g3 g4
      refine ⟨?_, rfl, (hfresh _ _ _ _ g3).1 hx, (hstart _ _ _ _ g2).2⟩
      simp only [BPort.resolve, hmap x hx]; rfl
    · exact ⟨rfl, rfl, (hstart _ _ _ _ g2).1, (hstart _ _ _ _ g5).2⟩)
  have htu : IsTree (SetLinks u (u.links ++ (boundary s h r i o).map (edgeLink f))) :=
    ⟨U.tree.1, U.tree.2, U.tree.3, U.tree.4, U.tree.5, U.tree.6, U.tree.7, U.tree.8, U.tree.9⟩
  obtain ⟨g, eg, R⟩ := removeEach htu hm.nodup (by
    intro n hn
    refine ⟨(U.live n).2 (.inl (hlive n hn)), ?_, ?_, ?_⟩
    · change n ≠ u.entrypoint
      rw [U.entrypoint]; rintro rfl; exact hne hn
    · change n ≠ u.moduleRoot
      rw [U.moduleRoot]; rintro rfl; exact hrt hn
    · refine (U.host_children n (hlive n hn) ?_).trans (hm.leaf n hn)
      rintro rfl; exact hpn hn)
  have hperm : g.links.Perm (replacedLinks h r s i o f) := by
    rw [R.links]
    exact (List.Perm.append U.links (.refl _)).filter _
  refine ⟨g, map, f, ?_, hmap, hmap', ?_, R.tree, hperm⟩
  · unfold simpleReplace
    rw [hcheck]
    simp only []
    unfold replaceApply
    simp only [hio, allBoundaryEdges_eq hw, hu, hconn, eg]
  · refine ⟨U.fresh, U.injective, ?_, R.moduleRoot.trans U.moduleRoot, R.entrypoint.trans U.entrypoint, ?_, ?_, ?_, ?_, ?_, ?_⟩
    · intro n
      rw [R.live]
      change u.live n = true ∧ _ ↔ _
      rw [U.live]
      constructor
      · rintro ⟨hn | hn, h2⟩
        · exact .inl ⟨hn, h2⟩
        · exact .inr hn
      · rintro (⟨h1, h2⟩ | ⟨x, hx, rfl⟩)
        · exact ⟨.inl h1, h2⟩
        · exact ⟨.inr ⟨x, hx, rfl⟩, hfx x hx⟩
    · intro n hn hs
      obtain ⟨a1, a2, a3, a4, a5⟩ := U.host n hn
      refine ⟨(R.ops n hs).trans a1, ?_, ?_, ?_, (R.parent n hs).trans a5⟩
      · rw [R.ins]; exact a2
      · rw [R.outs]; exact a3
      · rw [R.metadata]; exact a4
    · intro x hx
      obtain ⟨a1, a2, a3, a4, a5⟩ := U.node x hx
      refine ⟨(R.ops _ (hfx x hx)).trans a1, ?_, ?_, ?_, (R.parent _ (hfx x hx)).trans a5⟩
      · rw [R.ins]; exact a2
      · rw [R.outs]; exact a3
      · rw [R.metadata]; exact a4
    · refine (R.children p).trans ?_
      change (u.children p).filter _ = _
      rw [U.region, List.filter_append]
      congr 1
      refine List.filter_eq_self.2 ?_
      intro y hy
      obtain ⟨x, hx, rfl⟩ := List.mem_map.1 hy
      rw [hch] at hx
      have hx' : x ∈ rest := by simpa using hx
      have hnd : (i :: o :: rest).Nodup := by rw [← hch]; exact htr.child_once _
      have hpx : r.hier.parent x = some r.entrypoint := (htr.child_iff _ _).1 (by
        change x ∈ r.children r.entrypoint
        rw [hch]; simp [hx'])
      have : Fresh r i o x := by
        refine ⟨.child hpx, ?_, ?_⟩
        · rintro rfl; exact (List.nodup_cons.1 hnd).1 (by simp [hx'])
        · rintro rfl; exact (List.nodup_cons.1 (List.nodup_cons.1 hnd).2).1 hx'
      simpa using hfx x this
    · intro n hn hs hnp
      refine (R.children n).trans ?_
      change (u.children n).filter _ = _
      rw [U.host_children n hn hnp]
      refine List.filter_eq_self.2 ?_
      intro x hx
      have hpx := (ht.child_iff _ _).1 hx
      have : x ∉ s.nodes := by
        intro hxs
        rw [hm.parent x hxs] at hpx
        exact hnp (Option.some.inj hpx).symm
      simpa using this
    · intro x hx
      refine (R.children _).trans ?_
      change (u.children (f x)).filter _ = _
      rw [U.node_children x hx]
      refine List.filter_eq_self.2 ?_
      intro y hy
      obtain ⟨c, hc, rfl⟩ := List.mem_map.1 hy
      have hpc := (htr.child_iff _ _).1 hc
      have hic : Inside r r.entrypoint c := ⟨x, hpc, hx.1.above⟩
      have : Fresh r i o c := by
        refine ⟨hic, ?_, ?_⟩
        · rintro rfl
          have : r.hier.parent c = some r.entrypoint := (htr.child_iff _ _).1 (by
            change c ∈ r.children r.entrypoint
            rw [hch]; simp)
          rw [this] at hpc
          cases hpc
          exact inside_irrefl htr _ hx.1
        · rintro rfl
          have : r.hier.parent c = some r.entrypoint := (htr.child_iff _ _).1 (by
            change c ∈ r.children r.entrypoint
            rw [hch]; simp)
          rw [this] at hpc
          cases hpc
          exact inside_irrefl htr _ hx.1
      simpa using hfx c this
    · intro l
      rw [hperm.mem_iff]
      unfold replacedLinks
      rw [List.mem_filter, List.mem_append, List.mem_append]
      simp only [Bool.and_eq_true, decide_eq_true_eq]
      constructor
      · rintro ⟨(h1 | h1) | h1, h2, h3⟩
        · exact .inl ⟨h1, h2, h3⟩
        · obtain ⟨l', hl', rfl⟩ := List.mem_map.1 h1
          obtain ⟨b1, b2⟩ := List.mem_filter.1 hl'
          simp only [Bool.and_eq_true, decide_eq_true_eq, mem_fresh htr] at b2
          exact .inr (.inner b1 b2.1 b2.2)
        · obtain ⟨e, he, rfl⟩ := List.mem_map.1 h1
          rcases (edge_newLink hw f _).1 ⟨⟨e, he, rfl⟩, h2, h3⟩ with ⟨k, a, ap, x, xp, g1, g2, g3, g4, _⟩ |
            ⟨x, xp, j, b, bp, g1, g2, g3, g4, _⟩ | ⟨k, j, a, ap, b, bp, g1, g2, g3, g4⟩
          · rw [g4]; exact .inr (.incoming g1 g2 g3)
          · rw [g4]; exact .inr (.outgoing g1 g2 g3)
          · rw [g4]; exact .inr (.through g1 g2 g3)
      · rintro (⟨h1, h2, h3⟩ | hn)
        · exact ⟨.inl (.inl h1), h2, h3⟩
        · have key : ∀ l', ((∃ e ∈ boundary s h r i o, edgeLink f e = l') ∧ l'.src ∉ s.nodes ∧ l'.dst ∉ s.nodes) →
              ((l' ∈ h.links ∨ l' ∈ (r.links.filter fun l => l.src ∈ freshNodes r i o && l.dst ∈ freshNodes r i o).map
                (Link.rename f)) ∨ l' ∈ (boundary s h r i o).map (edgeLink f)) ∧ l'.src ∉ s.nodes ∧ l'.dst ∉ s.nodes := by
            rintro l' ⟨⟨e, he, he'⟩, h2⟩
            exact ⟨.inr (List.mem_map.2 ⟨e, he, he'⟩), h2⟩
          cases hn with
          | inner g1 g2 g3 =>
            refine ⟨.inl (.inr (List.mem_map.2 ⟨_, List.mem_filter.2 ⟨g1, ?_⟩, rfl⟩)), hfx _ g2, hfx _ g3⟩
            simp only [Bool.and_eq_true, decide_eq_true_eq, mem_fresh htr]
            exact ⟨g2, g3⟩
          | incoming g1 g2 g3 =>
            exact key _ ((edge_newLink hw f _).2 (.inl ⟨_, _, _, _, _, g1, g2, g3, rfl, hfx _ (hw.start _ _ _ g2 g3)⟩))
          | outgoing g1 g2 g3 =>
            exact key _ ((edge_newLink hw f _).2 (.inr (.inl ⟨_, _, _, _, _, g1, g2, g3, rfl, hfx _ (hw.stop _ _ _ g1 g2)⟩)))
          | through g1 g2 g3 =>
            exact key _ ((edge_newLink hw f _).2 (.inr (.inr ⟨_, _, _, _, _, _, g1, g2, g3, rfl⟩)))

end Verif.Patch
