import Verif.Graph.Bfs

/-!
# C24: canonicalising node indices

Source: `/repo/hugr-core/src/hugr.rs:349-405`.
-/
namespace Verif.Graph

variable {Op Meta : Type}

/-! ## Model -/

/-- Exchange two indices. -/
def swapIdx (a b i : Nat) : Nat := if i = a then b else if i = b then a else i

/-- A link with its nodes renamed. -/
def Link.rename (d : Nat → Nat) (l : Link) : Link := { l with src := d l.src, dst := d l.dst }

/-- The three swaps of hugr.rs:389-391: `MultiPortGraph::swap_nodes` exchanges two nodes (or a node
and a free index) with their ports and links, `UnmanagedDenseMap::swap` their operations, and
`Hierarchy::swap_nodes` their places in the hierarchy. The metadata is not touched. -/
def Hugr.swapNodes (h : Hugr Op Meta) (a b : Nat) : Hugr Op Meta :=
  { h with
    live := fun i => h.live (swapIdx a b i)
    ins := fun i => h.ins (swapIdx a b i)
    outs := fun i => h.outs (swapIdx a b i)
    ops := fun i => h.ops (swapIdx a b i)
    links := h.links.map (Link.rename (swapIdx a b))
    hier :=
      { parent := fun i => (h.hier.parent (swapIdx a b i)).map (swapIdx a b)
        children := fun i => (h.hier.children (swapIdx a b i)).map (swapIdx a b) } }

/-- The loop of hugr.rs:382-384: `while position > source.index()`. `none` if it does not end within
`fuel` rounds, or an index is out of bounds. -/
def findSource (ordered : List Nat) (position : Nat) : Nat → Nat → Option Nat
  | 0, source => if position > source then none else some source
  | fuel + 1, source =>
    if position > source then
      match ordered[source]? with
      | none => none
      | some s => findSource ordered position fuel s
    else some source

/-- State of the loop over positions: the graph, `new_entrypoint`, and the calls of `rekey`. -/
structure CanonState (Op Meta : Type) where
  hugr : Hugr Op Meta
  entry : Option Nat
  rekeys : List (Nat × Nat)

/-- One round, hugr.rs:368-394. -/
def canonStep (ordered : List Nat) (s : CanonState Op Meta) (position : Nat) :
    Option (CanonState Op Meta) :=
  match ordered[position]? with
  | none => none
  | some source =>
    let entry := if source = s.hugr.entrypoint then some position else s.entry
    match findSource ordered position position source with
    | none => none
    | some src =>
      if position ≠ src then
        some { hugr := s.hugr.swapNodes position src, entry := entry
               rekeys := s.rekeys ++ [(src, position)] }
      else some { s with entry := entry }

/-- All rounds. -/
def canonLoop (ordered : List Nat) : CanonState Op Meta → List Nat → Option (CanonState Op Meta)
  | s, [] => some s
  | s, p :: ps =>
    match canonStep ordered s p with
    | none => none
    | some s' => canonLoop ordered s' ps

/-- `canonicalize_nodes`, hugr.rs:356-403, with the calls of `rekey`. `compact_nodes` at the end
leaves the nodes at `0..len` in place and gives up the indices beyond. -/
def Hugr.canonicalize (h : Hugr Op Meta) : Option (Hugr Op Meta × List (Nat × Nat)) :=
  let ordered := h.descendants h.moduleRoot
  match canonLoop ordered { hugr := h, entry := none, rekeys := [] } (List.range ordered.length) with
  | none => none
  | some s =>
    match s.entry with
    | none => none
    | some e => some ({ s.hugr with moduleRoot := 0, entrypoint := e, cap := ordered.length }, s.rekeys)

/-! ## Specification -/

/-- `h'` is `h` with its nodes renumbered in the order of `L`: the node at index `i` is `L[i]`. -/
structure Renumbered (h : Hugr Op Meta) (L : List Nat) (h' : Hugr Op Meta) : Prop where
  live : ∀ i, h'.live i = true ↔ i < L.length
  ops : ∀ i x, L[i]? = some x → h'.ops i = h.ops x
  ports : ∀ i x, L[i]? = some x → h'.ins i = h.ins x ∧ h'.outs i = h.outs x
  parent : ∀ i x, L[i]? = some x → h'.hier.parent i = (h.hier.parent x).map L.idxOf
  children : ∀ i x, L[i]? = some x → h'.hier.children i = (h.hier.children x).map L.idxOf
  links : h'.links.Perm (h.links.map (Link.rename L.idxOf))
  moduleRoot : L[h'.moduleRoot]? = some h.moduleRoot
  entrypoint : L[h'.entrypoint]? = some h.entrypoint

/-! ## Proof -/

/-- The graph whose node at `i` is the node `c i` of `h`; `d` is the inverse of `c`. -/
def Hugr.rename (h : Hugr Op Meta) (c d : Nat → Nat) : Hugr Op Meta :=
  { h with
    live := fun i => h.live (c i)
    ins := fun i => h.ins (c i)
    outs := fun i => h.outs (c i)
    ops := fun i => h.ops (c i)
    links := h.links.map (Link.rename d)
    hier :=
      { parent := fun i => (h.hier.parent (c i)).map d
        children := fun i => (h.hier.children (c i)).map d } }

theorem swap_rename (h : Hugr Op Meta) (c d : Nat → Nat) (a b : Nat) :
    (h.rename c d).swapNodes a b =
      h.rename (fun i => c (swapIdx a b i)) (fun i => swapIdx a b (d i)) := by
  unfold Hugr.rename Hugr.swapNodes
  simp only [List.map_map, Option.map_map]
  rfl

theorem swapIdx_swapIdx (a b i : Nat) : swapIdx a b (swapIdx a b i) = i := by
  unfold swapIdx
  by_cases h1 : i = a
  · subst h1; simp only [if_true]
    by_cases h2 : b = i
    · simp [h2]
    · simp [h2]
  · by_cases h2 : i = b
    · subst h2; simp [h1]
    · simp [h1, h2]

/-- When looking for position `p`, `x` is followed to `j` over the indices `path`. -/
inductive Chain (L : List Nat) (p : Nat) : Nat → Nat → List Nat → Prop
  | done {x : Nat} : p ≤ x → Chain L p x x []
  | next {x y j : Nat} {path : List Nat} : x < p → L[x]? = some y → Chain L p y j path →
      Chain L p x j (x :: path)

theorem Chain.ge {L : List Nat} {p x j : Nat} {path : List Nat} (h : Chain L p x j path) : p ≤ j := by
  induction h with
  | done h => exact h
  | next _ _ _ ih => exact ih

theorem Chain.unique {L : List Nat} {p x j j' : Nat} {P P' : List Nat} (h : Chain L p x j P)
    (h' : Chain L p x j' P') : P = P' := by
  induction h generalizing P' with
  | done hx =>
    cases h' with
    | done _ => rfl
    | next h1 _ _ => omega
  | next h1 h2 _ ih =>
    cases h' with
    | done h3 => omega
    | next h3 h4 h5 =>
      rw [h2] at h4; cases h4
      rw [ih h5]

theorem Chain.suffix {L : List Nat} {p x j : Nat} {P : List Nat} (h : Chain L p x j P) :
    ∀ y ∈ P, ∃ S, Chain L p y j S ∧ S.length ≤ P.length := by
  induction h with
  | done _ => simp
  | @next x y j path h1 h2 h3 ih =>
    intro z hz
    rcases List.mem_cons.1 hz with rfl | hz
    · exact ⟨_, .next h1 h2 h3, Nat.le_refl _⟩
    · obtain ⟨S, hS, hl⟩ := ih z hz
      exact ⟨S, hS, by simp only [List.length_cons]; omega⟩

theorem Chain.nodup {L : List Nat} {p x j : Nat} {P : List Nat} (h : Chain L p x j P) :
    P.Nodup ∧ ∀ y ∈ P, y < p := by
  induction h with
  | done _ => simp
  | @next x y j path h1 h2 h3 ih =>
    refine ⟨List.nodup_cons.2 ⟨?_, ih.1⟩, ?_⟩
    · intro hx
      obtain ⟨S, hS, hl⟩ := h3.suffix x hx
      have := (Chain.next h1 h2 h3).unique hS
      rw [← this] at hl
      simp only [List.length_cons] at hl
      omega
    · intro z hz
      rcases List.mem_cons.1 hz with rfl | hz
      · exact h1
      · exact ih.2 z hz

theorem Chain.length_le {L : List Nat} {p x j : Nat} {P : List Nat} (h : Chain L p x j P) :
    P.length ≤ p := by
  have : P.Subperm (List.range p) :=
    h.nodup.1.subperm fun x hx => List.mem_range.2 (h.nodup.2 x hx)
  simpa using this.length_le

theorem Chain.find {L : List Nat} {p x j : Nat} {P : List Nat} (h : Chain L p x j P) (fuel : Nat)
    (hf : P.length ≤ fuel) : findSource L p fuel x = some j := by
  induction h generalizing fuel with
  | done hx =>
    cases fuel with
    | zero => simp only [findSource]; rw [if_neg (by omega)]
    | succ f => simp only [findSource]; rw [if_neg (by omega)]
  | @next x y j path h1 h2 h3 ih =>
    cases fuel with
    | zero => simp at hf
    | succ f =>
      simp only [findSource]
      rw [if_pos h1, h2]
      exact ih f (by simpa using hf)

/-- A chain for `p` that does not end at `p` is a chain for `p + 1`. -/
theorem Chain.lift {L : List Nat} {p x j : Nat} {P : List Nat} (h : Chain L p x j P) (hj : j ≠ p) :
    Chain L (p + 1) x j P := by
  induction h with
  | done hx => exact .done (by omega)
  | next h1 h2 _ ih => exact .next (by omega) h2 (ih hj)

/-- A chain that ends at `p` goes on from there. -/
theorem Chain.extend {L : List Nat} {p x q j y : Nat} {P P' : List Nat} (h : Chain L p x q P)
    (hq : q = p) (hp : L[p]? = some y) (h' : Chain L (p + 1) y j P') :
    ∃ Q, Chain L (p + 1) x j Q := by
  induction h with
  | done hx => subst hq; exact ⟨_, .next (by omega) hp h'⟩
  | next h1 h2 _ ih =>
    obtain ⟨Q, hQ⟩ := ih hq
    exact ⟨_, .next (by omega) h2 hQ⟩

/-- Before position `p`: the graph is `h` with its nodes moved by `c`. -/
structure CanonInv (h : Hugr Op Meta) (L : List Nat) (p : Nat) (s : CanonState Op Meta)
    (c d : Nat → Nat) : Prop where
  hugr : s.hugr = h.rename c d
  cd : ∀ x, c (d x) = x
  dc : ∀ i, d (c i) = i
  placed : ∀ i, i < p → L[i]? = some (c i)
  rest : ∀ x, (∀ i, i < p → L[i]? ≠ some x) → ∃ j P, Chain L p x j P ∧ c j = x
  entry : ∀ e, s.entry = some e → L[e]? = some h.entrypoint
  entry_seen : ∀ i, i < p → L[i]? = some h.entrypoint → s.entry ≠ none

theorem canonStep_inv {h : Hugr Op Meta} {L : List Nat} (hL : L.Nodup) {p : Nat} (hp : p < L.length)
    {s : CanonState Op Meta} {c d : Nat → Nat} (hi : CanonInv h L p s c d) :
    ∃ s' c' d', canonStep L s p = some s' ∧ CanonInv h L (p + 1) s' c' d' := by
  obtain ⟨x, hx⟩ : ∃ x, L[p]? = some x := ⟨L[p], List.getElem?_eq_getElem hp⟩
  have hinj : ∀ a b y : Nat, L[a]? = some y → L[b]? = some y → a = b := by
    intro a b y ha hb
    have h1 : a < L.length := by
      rw [List.getElem?_eq_some_iff] at ha; exact ha.1
    have := (List.getElem?_inj h1 hL).1 (ha.trans hb.symm)
    exact this
  have hnew : ∀ i, i < p → L[i]? ≠ some x := by
    intro i hi' hix
    have := hinj i p x hix hx
    omega
  obtain ⟨j, P, hch, hcj⟩ := hi.rest x hnew
  have hjp := hch.ge
  have hfind := hch.find p hch.length_le
  have hent : s.hugr.entrypoint = h.entrypoint := by rw [hi.hugr]; rfl
  -- the two facts about the entrypoint
  have he1 : ∀ e, (if x = s.hugr.entrypoint then some p else s.entry) = some e →
      L[e]? = some h.entrypoint := by
    intro e he
    split at he
    · rename_i hxe; cases he; rw [hx, hxe, hent]
    · exact hi.entry e he
  have he2 : ∀ i, i < p + 1 → L[i]? = some h.entrypoint →
      (if x = s.hugr.entrypoint then some p else s.entry) ≠ none := by
    intro i hip hie
    split
    · simp
    · rename_i hxe
      apply hi.entry_seen i _ hie
      rcases Nat.lt_succ_iff_lt_or_eq.1 hip with h1 | h1
      · exact h1
      · subst h1; rw [hx] at hie; cases hie; exact absurd hent.symm hxe
  unfold canonStep
  rw [hx]
  simp only [hfind]
  by_cases hpj : p = j
  · subst hpj
    refine ⟨{ s with entry := if x = s.hugr.entrypoint then some p else s.entry }, c, d, by simp, ?_⟩
    refine ⟨hi.hugr, hi.cd, hi.dc, ?_, ?_, he1, he2⟩
    · intro i hip
      rcases Nat.lt_succ_iff_lt_or_eq.1 hip with h1 | h1
      · exact hi.placed i h1
      · subst h1; rw [hx, hcj]
    · intro z hz
      obtain ⟨jz, Pz, h1, h2⟩ := hi.rest z (fun i hip => hz i (by omega))
      refine ⟨jz, Pz, h1.lift ?_, h2⟩
      rintro rfl
      rw [hcj] at h2; subst h2
      exact hz jz (by omega) hx
  · refine ⟨{ hugr := s.hugr.swapNodes p j
              entry := if x = s.hugr.entrypoint then some p else s.entry
              rekeys := s.rekeys ++ [(j, p)] },
      fun i => c (swapIdx p j i), fun i => swapIdx p j (d i), by simp [hpj], ?_⟩
    refine ⟨by rw [hi.hugr]; exact swap_rename h c d p j, ?_, ?_, ?_, ?_, he1, he2⟩
    · intro y; simp only [swapIdx_swapIdx]; exact hi.cd y
    · intro i; simp only [hi.dc]; exact swapIdx_swapIdx p j i
    · intro i hip
      rcases Nat.lt_succ_iff_lt_or_eq.1 hip with h1 | h1
      · have : swapIdx p j i = i := by
          unfold swapIdx
          rw [if_neg (by omega), if_neg (by omega)]
        simp only [this]; exact hi.placed i h1
      · subst h1
        simp only [swapIdx, if_true]
        rw [hcj, hx]
    · intro z hz
      obtain ⟨jz, Pz, h1, h2⟩ := hi.rest z (fun i hip => hz i (by omega))
      have hzx : z ≠ x := by rintro rfl; exact hz p (by omega) hx
      have hjz : jz ≠ j := by rintro rfl; rw [hcj] at h2; exact hzx h2.symm
      by_cases hjzp : jz = p
      · subst hjzp
        obtain ⟨Q, hQ⟩ := h1.extend rfl hx (hch.lift (Ne.symm hpj))
        refine ⟨j, Q, hQ, ?_⟩
        simp only [swapIdx]
        rw [if_neg (Ne.symm hpj)]; simpa using h2
      · refine ⟨jz, Pz, h1.lift hjzp, ?_⟩
        simp only [swapIdx]
        rw [if_neg hjzp, if_neg hjz]; exact h2

theorem canonLoop_inv {h : Hugr Op Meta} {L : List Nat} (hL : L.Nodup) (k p : Nat)
    (hk : p + k = L.length) {s : CanonState Op Meta} {c d : Nat → Nat} (hi : CanonInv h L p s c d) :
    ∃ s' c' d', canonLoop L s (List.range' p k) = some s' ∧ CanonInv h L L.length s' c' d' := by
  induction k generalizing p s c d with
  | zero =>
    refine ⟨s, c, d, rfl, ?_⟩
    have : p = L.length := by omega
    rw [← this]; exact hi
  | succ k ih =>
    obtain ⟨s1, c1, d1, h1, h2⟩ := canonStep_inv hL (by omega) hi
    obtain ⟨s2, c2, d2, h3, h4⟩ := ih (p + 1) (by omega) h2
    refine ⟨s2, c2, d2, ?_, h4⟩
    rw [List.range'_succ]
    simp only [canonLoop]
    rw [h1]; exact h3

theorem Above.rename {h : Hugr Op Meta} {c d : Nat → Nat} (dc : ∀ i, d (c i) = i)
    (cd : ∀ x, c (d x) = x) {x y : Nat} (ha : Above h.hier.parent x y) :
    Above (h.rename c d).hier.parent (d x) (d y) := by
  induction ha with
  | refl => exact .refl _
  | @step n p m hp _ ih =>
    refine .step ?_ ih
    simp only [Hugr.rename, cd, hp, Option.map_some]

theorem rename_isTree {h : Hugr Op Meta} (ht : IsTree h) {c d : Nat → Nat} (dc : ∀ i, d (c i) = i)
    (cd : ∀ x, c (d x) = x) (root entry cap : Nat) (hr : c root = h.moduleRoot)
    (he : c entry = h.entrypoint) (hcap : ∀ i, h.live (c i) = true → i < cap) :
    IsTree { h.rename c d with moduleRoot := root, entrypoint := entry, cap := cap } := by
  have hinj : ∀ a b, d a = d b → a = b := fun a b hab => by rw [← cd a, hab, cd]
  refine ⟨?_, ?_, ?_, ?_, ?_, ?_, ?_, ?_, hcap⟩
  · simp only [Hugr.rename, hr]; exact ht.root_live
  · simp only [Hugr.rename, he]; exact ht.entry_live
  · simp only [Hugr.rename, hr, ht.root_top, Option.map_none]
  · intro n hn hne
    simp only [Hugr.rename] at hn ⊢
    obtain ⟨p, hp⟩ := ht.has_parent (c n) hn (fun hc => hne (by rw [← dc n, hc, ← hr, dc]))
    exact ⟨d p, by rw [hp]; rfl⟩
  · intro n p hp
    simp only [Hugr.rename, Option.map_eq_some_iff] at hp ⊢
    obtain ⟨q, hq, rfl⟩ := hp
    rw [cd]
    exact ht.parent_live _ _ hq
  · intro p n
    simp only [Hugr.rename, List.mem_map, Option.map_eq_some_iff]
    constructor
    · rintro ⟨m, hm, rfl⟩
      rw [cd]
      exact ⟨c p, (ht.child_iff _ _).1 hm, dc p⟩
    · rintro ⟨q, hq, rfl⟩
      rw [cd]
      exact ⟨c n, (ht.child_iff _ _).2 hq, dc n⟩
  · intro p
    simp only [Hugr.rename]
    exact (ht.child_once _).map (fun a b hab => hinj a b hab)
  · intro n hn
    have := (ht.reaches_root (c n) hn).rename (c := c) (d := d) dc cd
    rw [dc, ← hr, dc] at this
    exact this

theorem rename_linksOk {h : Hugr Op Meta} (hl : LinksOk h) {c d : Nat → Nat}
    (cd : ∀ x, c (d x) = x) (root entry cap : Nat) :
    LinksOk { h.rename c d with moduleRoot := root, entrypoint := entry, cap := cap } := by
  intro l hm
  simp only [Hugr.rename, List.mem_map] at hm ⊢
  obtain ⟨l', hl', rfl⟩ := hm
  simp only [Link.rename, cd]
  exact hl l' hl'

theorem bfs_map {children children' : Nat → List Nat} {d : Nat → Nat}
    (hc : ∀ x, children' (d x) = (children x).map d) (fuel : Nat) (Q : List Nat) :
    bfs children' fuel (Q.map d) = (bfs children fuel Q).map d := by
  induction fuel generalizing Q with
  | zero => simp [bfs]
  | succ f ih =>
    cases Q with
    | nil => simp [bfs]
    | cons q Q =>
      simp only [List.map_cons, bfs, List.cons.injEq, true_and]
      rw [hc, ← List.map_append, ih]

theorem bfs_take (children : Nat → List Nat) (f f' : Nat) (hf : f ≤ f') (Q : List Nat) :
    bfs children f Q = (bfs children f' Q).take f := by
  induction f generalizing f' Q with
  | zero => simp [bfs]
  | succ f ih =>
    obtain ⟨g, rfl⟩ : ∃ g, f' = g + 1 := ⟨f' - 1, by omega⟩
    cases Q with
    | nil => simp [bfs]
    | cons q Q =>
      simp only [bfs, List.take_succ_cons, List.cons.injEq, true_and]
      exact ih g (by omega) _

/-- **C24** (partial) Canonicalising the indices never panics, leaves the live nodes at `0..n` in
breadth-first order (so that the order of the result is `0, 1, …`, which is what makes serialisation
preserve the indices) and renumbers operations, ports, hierarchy and links; the result is again a
tree. Metadata stays at its *index*: the full statement, that it stays with its node, is refuted by
`C24_metadata_refuted`. -/
theorem C24_canonicalize_partial (h : Hugr Op Meta) (ht : IsTree h) (hlk : LinksOk h) :
    ∃ h' r, h.canonicalize = some (h', r) ∧ Renumbered h (h.descendants h.moduleRoot) h' ∧
      Enumerates h h.moduleRoot (h.descendants h.moduleRoot) ∧
      h'.descendants h'.moduleRoot = List.range (h.descendants h.moduleRoot).length ∧
      IsTree h' ∧ LinksOk h' ∧ h'.metadata = h.metadata ∧
      h'.links = h.links.map (Link.rename (h.descendants h.moduleRoot).idxOf) := by
  have hen := descendants_enumerates ht ht.root_live
  generalize hL : h.descendants h.moduleRoot = L at hen
  have hi0 : CanonInv h L 0 { hugr := h, entry := none, rekeys := [] } id id := by
    refine ⟨?_, fun _ => rfl, fun _ => rfl, by omega, ?_, by simp, by omega⟩
    · have h1 : (Link.rename id) = id := rfl
      unfold Hugr.rename
      simp [h1]
    · intro x _; exact ⟨x, [], .done (by omega), rfl⟩
  obtain ⟨s, c, d, h1, h2⟩ := canonLoop_inv hen.nodup L.length 0 (by omega) hi0
  have hmem : ∀ x, h.live x = true → x ∈ L := fun x hx => (hen.mem x).2 (ht.reaches_root x hx)
  have hlive : ∀ x ∈ L, h.live x = true := by
    intro x hx
    have := (hen.mem x).1 hx
    cases this with
    | refl => exact ht.root_live
    | step hp _ => exact (ht.parent_live _ _ hp).1
  have hpos : ∀ i x, L[i]? = some x → d x = i ∧ c i = x := by
    intro i x hix
    have hlt : i < L.length := (List.getElem?_eq_some_iff.1 hix).1
    have := h2.placed i hlt
    rw [hix] at this; cases this
    exact ⟨h2.dc i, rfl⟩
  have hidx : ∀ x ∈ L, d x = L.idxOf x := by
    intro x hx
    apply (hpos (L.idxOf x) x _).1
    rw [List.getElem?_idxOf hx]
  obtain ⟨e, he⟩ : ∃ e, s.entry = some e := by
    obtain ⟨i, hil, hi'⟩ := List.getElem_of_mem (hmem _ ht.entry_live)
    have := h2.entry_seen i hil (by rw [List.getElem?_eq_getElem hil, hi'])
    cases hs : s.entry with
    | none => exact absurd hs this
    | some e => exact ⟨e, rfl⟩
  have hlinks : (h.rename c d).links = h.links.map (Link.rename L.idxOf) := by
    simp only [Hugr.rename]
    apply List.map_congr_left
    intro l hl
    obtain ⟨h3, _, h4, _⟩ := hlk l hl
    simp only [Link.rename]
    rw [hidx _ (hmem _ h3), hidx _ (hmem _ h4)]
  refine ⟨{ s.hugr with moduleRoot := 0, entrypoint := e, cap := L.length }, s.rekeys, ?_, ?_, hen, ?_, ?_, ?_, ?_, ?_⟩
  · unfold Hugr.canonicalize
    simp only [hL]
    rw [List.range_eq_range', h1]
    simp only [he]
  · rw [h2.hugr]
    refine ⟨?_, ?_, ?_, ?_, ?_, ?_, ?_, h2.entry e he⟩
    · intro i
      simp only [Hugr.rename]
      constructor
      · intro hl
        obtain ⟨j, hj, hj'⟩ := List.getElem_of_mem (hmem _ hl)
        have h3 : L[j]? = some (c i) := by rw [List.getElem?_eq_getElem hj, hj']
        have h4 := (hpos j _ h3).1
        rw [h2.dc] at h4; omega
      · intro hl
        apply hlive
        rw [List.mem_iff_getElem?]
        exact ⟨i, h2.placed i hl⟩
    · intro i x hx; simp only [Hugr.rename]; rw [(hpos i x hx).2]
    · intro i x hx; simp only [Hugr.rename]; rw [(hpos i x hx).2]; exact ⟨rfl, rfl⟩
    · intro i x hx
      simp only [Hugr.rename]; rw [(hpos i x hx).2]
      cases hp : h.hier.parent x with
      | none => rfl
      | some q =>
        simp only [Option.map_some]
        rw [hidx q (hmem q (ht.parent_live x q hp).2)]
    · intro i x hx
      simp only [Hugr.rename]; rw [(hpos i x hx).2]
      apply List.map_congr_left
      intro y hy
      exact hidx y (hmem y (ht.parent_live y x ((ht.child_iff x y).1 hy)).1)
    · exact .of_eq hlinks
    · simp only []
      rw [← List.head?_eq_getElem?]; exact hen.head
  · rw [h2.hugr]
    have hroot : L[0]? = some h.moduleRoot := by rw [← List.head?_eq_getElem?]; exact hen.head
    have hd0 : d h.moduleRoot = 0 := (hpos 0 _ hroot).1
    have hlen : L.length ≤ h.cap := nodup_live_length ht hen.nodup hlive
    have h3 : bfs (h.rename c d).hier.children (h.cap + 1) ([h.moduleRoot].map d) = L.map d := by
      rw [bfs_map (children := h.children), ← hL]
      · rfl
      · intro x; simp only [Hugr.rename, h2.cd]; rfl
    have h4 : L.map d = List.range L.length := by
      apply List.ext_getElem?
      intro i
      rw [List.getElem?_map]
      by_cases hil : i < L.length
      · rw [h2.placed i hil, List.getElem?_range hil]
        simp [h2.dc]
      · rw [List.getElem?_eq_none (by omega), List.getElem?_eq_none (by simp; omega)]; rfl
    unfold Hugr.descendants
    have h5 := bfs_take (h.rename c d).hier.children (L.length + 1) (h.cap + 1) (by omega)
      ([h.moduleRoot].map d)
    rw [h3, h4, List.map_cons, List.map_nil, hd0] at h5
    show bfs (h.rename c d).hier.children (L.length + 1) [0] = _
    rw [h5]
    apply List.take_of_length_le
    simp
  · rw [h2.hugr]
    have hroot : L[0]? = some h.moduleRoot := by rw [← List.head?_eq_getElem?]; exact hen.head
    refine rename_isTree ht h2.dc h2.cd 0 e L.length (hpos 0 _ hroot).2
      (hpos e _ (h2.entry e he)).2 ?_
    intro i hl
    obtain ⟨j, hj, hj'⟩ := List.getElem_of_mem (hmem _ hl)
    have h3 : L[j]? = some (c i) := by rw [List.getElem?_eq_getElem hj, hj']
    have h4 := (hpos j _ h3).1
    rw [h2.dc] at h4; omega
  · rw [h2.hugr]; exact rename_linksOk hlk h2.cd _ _ _
  · rw [h2.hugr]; rfl
  · rw [h2.hugr]; exact hlinks

/-- Nodes added in order, then moved. -/
def canonHistory : List (Cmd Nat String) :=
  [ .addNodeWithParent 1 0 1, .addNodeWithParent 2 0 2, .addNodeWithParent 3 0 3,
    .addNodeWithParent 4 2 4, .connect ⟨2, 0, 3, 2⟩, .setMetadata 3 "name" "three",
    .moveBeforeSibling 3 1, .addNodeWithParent 5 4 5, .removeNode 1, .setEntrypoint 4 ]

/-- `C20_tree_partial` gives the hypotheses of `C24_canonicalize_partial` for this history. -/
example : AllDocumented demoInfo (Hugr.new demoInfo 0) canonHistory := by decide +kernel

example : (run demoInfo (Hugr.new demoInfo 0) canonHistory).bind (fun h => h.canonicalize.map
      fun r => (h.descendants 0, r.1.nodes, r.1.nodes.map r.1.ops, r.1.nodes.map r.1.children,
        r.1.links, r.1.entrypoint, r.2)) =
    some ([0, 3, 2, 4, 5], [0, 1, 2, 3, 4], [0, 3, 2, 4, 5], [[1, 2], [], [3], [4], []],
      [⟨2, 0, 1, 2⟩], 3, [(3, 1), (4, 3), (5, 4)]) := by rfl

/-- **C24** Finding: metadata does not move with its node. The node at index 3 is moved to index 1,
its metadata stays at index 3, where another node is now. -/
theorem C24_metadata_refuted :
    ∃ (h h' : Hugr Nat String) (r : List (Nat × Nat)),
      run demoInfo (Hugr.new demoInfo 0) canonHistory = some h ∧ h.canonicalize = some (h', r) ∧
      (h.descendants h.moduleRoot)[1]? = some 3 ∧ (h.descendants h.moduleRoot)[3]? = some 4 ∧
      h.getMetadata 3 "name" = some (some "three") ∧ h'.getMetadata 1 "name" = some none ∧
      h.getMetadata 4 "name" = some none ∧ h'.getMetadata 3 "name" = some (some "three") := by
  refine ⟨_, _, _, rfl, rfl, ?_⟩
  decide +kernel

/-- **C24** Finding: "the rekey function is called for each moved node with the old and new indices"
does not hold. With the nodes in the order 0, 3, 1, 2 it is called with (3, 1) and (3, 2): node 1,
which moves to 2, is reported as 3, and node 2, which moves to 3, is not reported. -/
theorem C24_rekey_refuted :
    ∃ (h h' : Hugr Nat String) (r : List (Nat × Nat)),
      run demoInfo (Hugr.new demoInfo 0)
        [.addNodeWithParent 1 0 1, .addNodeWithParent 2 0 2, .addNodeWithParent 3 0 3,
          .moveBeforeSibling 3 1] = some h ∧
      h.canonicalize = some (h', r) ∧ h.descendants h.moduleRoot = [0, 3, 1, 2] ∧
      r = [(3, 1), (3, 2)] := by
  refine ⟨_, _, _, rfl, rfl, ?_⟩
  decide +kernel

end Verif.Graph
