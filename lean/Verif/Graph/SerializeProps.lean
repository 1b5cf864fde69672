import Verif.Graph.Serialize
import Verif.Graph.Canon
import Verif.Graph.InsertLemmas
import Verif.Graph.Props

/-!
# C25: serialisation round trip
-/
namespace Verif.Graph

variable {Op Meta : Type}

/-! ## Specification -/

/-- Facts about operations: modules have no ports; an existing port that is neither a value port nor
the static port, of an operation whose other ports are order ports, is *the* order port. Proved for
all operations of the specification in `Verif.Ops` (`C25_ops_law`). -/
structure SerInfo.Law (I : SerInfo Op) : Prop where
  module_ports : ∀ op, I.isModule op = true → I.inputs op = 0 ∧ I.outputs op = 0
  order_in : ∀ op i, i < I.inputs op → ¬ i < I.valuePorts op .incoming →
    I.staticPort op .incoming ≠ some i → I.otherIsOrder op .incoming = true →
    I.otherPort op .incoming = some i
  order_out : ∀ op i, i < I.outputs op → ¬ i < I.valuePorts op .outgoing →
    I.staticPort op .outgoing ≠ some i → I.otherIsOrder op .outgoing = true →
    I.otherPort op .outgoing = some i

/-- Every node has the ports of its operation, which is one of the conditions checked by
`validate` (hugr/validate.rs:179-199). -/
def PortsMatch (I : OpInfo Op) (h : Hugr Op Meta) : Prop :=
  ∀ n, h.live n = true → h.ins n = I.inputs (h.ops n) ∧ h.outs n = I.outputs (h.ops n)

/-! ## Lemmas -/

theorem allSome_map {α β : Type} (l : List α) (f : α → Option β) (g : α → β)
    (h : ∀ x ∈ l, f x = some (g x)) : allSome (l.map f) = some (l.map g) := by
  induction l with
  | nil => rfl
  | cons x l ih =>
    rw [List.map_cons, h x (by simp), allSome, ih fun y hy => h y (by simp [hy])]
    rfl

theorem above_live {h : Hugr Op Meta} (ht : IsTree h) {a b : Nat} (hab : Above h.hier.parent a b)
    (ha : h.live a = true) : h.live b = true := by
  induction hab with
  | refl => exact ha
  | step hp _ ih => exact ih (ht.parent_live _ _ hp).2

/-- Adding a fresh node below a live node succeeds. -/
theorem addNode_succeeds (I : OpInfo Op) {h : Hugr Op Meta} (ht : IsTree h) {n q : Nat} (op : Op)
    (hn : h.live n = false) (hq : h.live q = true) :
    ∃ h', h.addNodeWithParent I n q op = some h' := by
  have hp : h.hier.parent n = none := (ht.dead hn).1
  have ho : h.hier.onPath (max h.cap (n + 1)) q n = false := by
    cases hc : h.hier.onPath (max h.cap (n + 1)) q n with
    | false => rfl
    | true =>
      have := above_live ht (onPath_above hc) hq
      rw [hn] at this; cases this
  cases hc : h.addNodeWithParent I n q op with
  | some h' => exact ⟨h', rfl⟩
  | none =>
    exfalso
    unfold Hugr.addNodeWithParent Hugr.addNode at hc
    rw [if_neg (by simp [hn])] at hc
    simp [Hier.pushChild, Hier.canAttach, hp, ho, Hugr.withHier] at hc

/-- Positions in an enumeration of the whole tree. -/
structure Positions (h : Hugr Op Meta) (L : List Nat) : Prop where
  idx : ∀ i x : Nat, L[i]? = some x → L.idxOf x = i
  at_idx : ∀ x, h.live x = true → L[L.idxOf x]? = some x
  live : ∀ i x : Nat, L[i]? = some x → h.live x = true
  root : L[0]? = some h.moduleRoot
  parent : ∀ i x : Nat, L[i]? = some x → x ≠ h.moduleRoot →
    ∃ q, h.hier.parent x = some q ∧ L.idxOf q < i ∧ L[L.idxOf q]? = some q

theorem positions {h : Hugr Op Meta} (ht : IsTree h) {L : List Nat}
    (hen : Enumerates h h.moduleRoot L) : Positions h L := by
  have hmem : ∀ x, h.live x = true → x ∈ L := fun x hx => (hen.mem x).2 (ht.reaches_root x hx)
  have hlive : ∀ x ∈ L, h.live x = true := by
    intro x hx
    have := (hen.mem x).1 hx
    cases this with
    | refl => exact ht.root_live
    | step hp _ => exact (ht.parent_live _ _ hp).1
  have hidx : ∀ i x : Nat, L[i]? = some x → L.idxOf x = i := by
    intro i x hx
    obtain ⟨hi, rfl⟩ := List.getElem?_eq_some_iff.1 hx
    exact hen.nodup.idxOf_getElem i hi
  refine ⟨hidx, fun x hx => List.getElem?_idxOf (hmem x hx),
    fun i x hx => hlive x (List.mem_of_getElem? hx), ?_, ?_⟩
  · rw [← List.head?_eq_getElem?]; exact hen.head
  · intro i x hx hr
    obtain ⟨hi, hxi⟩ := List.getElem?_eq_some_iff.1 hx
    have hL : L = L.take i ++ x :: L.drop (i + 1) := by
      rw [← hxi, ← List.drop_eq_getElem_cons hi, List.take_append_drop]
    obtain ⟨q, hq, hqa⟩ := hen.parents_first _ _ _ hL hr
    obtain ⟨j, hj, hj'⟩ := List.getElem_of_mem hqa
    simp only [List.length_take] at hj
    have hjq : L[j]? = some q := by
      rw [List.getElem_take] at hj'
      rw [List.getElem?_eq_getElem (by omega), hj']
    refine ⟨q, hq, ?_, ?_⟩
    · rw [hidx j q hjq]; omega
    · rw [hidx j q hjq]; exact hjq

/-! ### Writing nodes -/

theorem rekey_live {h : Hugr Op Meta} {L : List Nat} (hp : Positions h L) {x : Nat}
    (hx : h.live x = true) : rekey L x = some (L.idxOf x) := by
  unfold rekey
  rw [if_pos (List.mem_of_getElem? (hp.at_idx x hx))]

/-- What is written for a node. -/
def serNode (h : Hugr Op Meta) (L : List Nat) (x : Nat) : Nat × Op :=
  (L.idxOf ((h.getParent x).getD x), h.ops x)

theorem getParent_live {h : Hugr Op Meta} (ht : IsTree h) {x : Nat} (hx : h.live x = true) :
    h.live ((h.getParent x).getD x) = true := by
  unfold Hugr.getParent
  split
  · cases hp : h.hier.parent x with
    | none => exact hx
    | some q => exact (ht.parent_live x q hp).2
  · exact hx

theorem serNodes_spec {h : Hugr Op Meta} (ht : IsTree h) {L : List Nat} (hp : Positions h L)
    (ns : List Nat) (vs : List (Option (Nat × Op))) (ms : List (Option (List (String × Meta))))
    (hns : ∀ x ∈ ns, h.live x = true) (hv : vs.length = L.length) (hm : ms.length = L.length) :
    ∃ vs' ms', serNodes h L ns (vs, ms) = some (vs', ms') ∧ vs'.length = L.length ∧
      ms'.length = L.length ∧
      (∀ x ∈ ns, vs'[L.idxOf x]? = some (some (serNode h L x)) ∧ ms'[L.idxOf x]? = some (h.metadata x)) ∧
      (∀ i : Nat, (∀ x ∈ ns, L.idxOf x ≠ i) → vs'[i]? = vs[i]? ∧ ms'[i]? = ms[i]?) := by
  induction ns generalizing vs ms with
  | nil => exact ⟨vs, ms, rfl, hv, hm, by simp, by simp⟩
  | cons x ns ih =>
    have hx := hns x (by simp)
    have hlt : L.idxOf x < L.length := (List.getElem?_eq_some_iff.1 (hp.at_idx x hx)).1
    unfold serNodes
    rw [rekey_live hp (getParent_live ht hx), rekey_live hp hx]
    simp only []
    rw [if_pos (by omega)]
    obtain ⟨vs', ms', h1, h2, h3, h4, h5⟩ := ih (vs.set (L.idxOf x) (some (serNode h L x)))
      (ms.set (L.idxOf x) (h.metadata x)) (fun y hy => hns y (by simp [hy]))
      (by simpa using hv) (by simpa using hm)
    refine ⟨vs', ms', h1, h2, h3, ?_, ?_⟩
    · intro y hy
      by_cases hyn : y ∈ ns
      · exact h4 y hyn
      · rcases List.mem_cons.1 hy with hyx | hy'
        · subst hyx
          have hne : ∀ z ∈ ns, L.idxOf z ≠ L.idxOf y := by
            intro z hz he
            have h6 := hp.at_idx z (hns z (by simp [hz]))
            rw [he, hp.at_idx y hx] at h6
            cases h6; exact hyn hz
          obtain ⟨h7, h8⟩ := h5 _ hne
          rw [h7, h8]
          simp [List.getElem?_set, hv, hm, hlt]
        · exact absurd hy' hyn
    · intro i hi
      obtain ⟨h7, h8⟩ := h5 i fun y hy => hi y (by simp [hy])
      have := hi x (by simp)
      rw [h7, h8, List.getElem?_set_ne this, List.getElem?_set_ne this]
      exact ⟨rfl, rfl⟩

theorem mem_nodes {h : Hugr Op Meta} (ht : IsTree h) (x : Nat) : x ∈ h.nodes ↔ h.live x = true := by
  unfold Hugr.nodes
  simp only [List.mem_filter, List.mem_range]
  exact ⟨fun hx => hx.2, fun hx => ⟨ht.in_range x hx, hx⟩⟩

theorem nodes_length {h : Hugr Op Meta} (ht : IsTree h) {L : List Nat}
    (hen : Enumerates h h.moduleRoot L) : h.nodes.length = L.length := by
  have hp := positions ht hen
  apply List.Perm.length_eq
  unfold Hugr.nodes
  rw [List.perm_ext_iff_of_nodup (List.nodup_range.filter _) hen.nodup]
  intro x
  refine (mem_nodes ht x).trans ⟨fun hx => List.mem_of_getElem? (hp.at_idx x hx), fun hx => ?_⟩
  obtain ⟨i, hi⟩ := List.mem_iff_getElem?.1 hx
  exact hp.live i x hi

theorem serNodes_result {h : Hugr Op Meta} (ht : IsTree h) {L : List Nat}
    (hen : Enumerates h h.moduleRoot L) :
    serNodes h L h.nodes (List.replicate h.nodes.length none, List.replicate h.nodes.length none) =
      some (L.map fun x => some (serNode h L x), L.map h.metadata) := by
  have hp := positions ht hen
  have hlen := nodes_length ht hen
  obtain ⟨vs', ms', h1, h2, h3, h4, -⟩ := serNodes_spec ht hp h.nodes
    (List.replicate h.nodes.length none) (List.replicate h.nodes.length none)
    (fun x hx => (mem_nodes ht x).1 hx) (by simpa using hlen) (by simpa using hlen)
  rw [h1]
  have hpos : ∀ i x : Nat, L[i]? = some x → vs'[i]? = some (some (serNode h L x)) ∧
      ms'[i]? = some (h.metadata x) := by
    intro i x hx
    have := h4 x ((mem_nodes ht x).2 (hp.live i x hx))
    rwa [hp.idx i x hx] at this
  congr 2
  · apply List.ext_getElem?
    intro i
    rw [List.getElem?_map]
    cases hi : L[i]? with
    | none => rw [List.getElem?_eq_none_iff] at hi; rw [List.getElem?_eq_none (by omega)]; rfl
    | some x => rw [(hpos i x hi).1]; rfl
  · apply List.ext_getElem?
    intro i
    rw [List.getElem?_map]
    cases hi : L[i]? with
    | none => rw [List.getElem?_eq_none_iff] at hi; rw [List.getElem?_eq_none (by omega)]; rfl
    | some x => rw [(hpos i x hi).2]; rfl

/-! ### Writing edges -/

/-- The links in the order in which they are written. -/
def linkOrder (h : Hugr Op Meta) : List Link :=
  h.nodes.flatMap fun n => (List.range (h.outs n)).flatMap fun port =>
    h.links.filter fun l => l.src = n && l.srcPort = port

theorem flatMap_filter_nil {α β : Type} (l : List α) (p : α → Bool) (f : α → List β)
    (h : ∀ x ∈ l, p x = false → f x = []) : (l.filter p).flatMap f = l.flatMap f := by
  induction l with
  | nil => rfl
  | cons x l ih =>
    have ih' := ih fun y hy => h y (by simp [hy])
    cases hx : p x with
    | true => rw [List.filter_cons_of_pos hx, List.flatMap_cons, List.flatMap_cons, ih']
    | false =>
      rw [List.filter_cons_of_neg (by simp [hx]), List.flatMap_cons, h x (by simp) hx, ih']
      rfl

theorem flatMap_perm_congr {α β : Type} (l : List α) (f g : α → List β)
    (h : ∀ x ∈ l, (f x).Perm (g x)) : (l.flatMap f).Perm (l.flatMap g) := by
  induction l with
  | nil => exact .refl _
  | cons x l ih =>
    rw [List.flatMap_cons, List.flatMap_cons]
    exact (h x (by simp)).append (ih fun y hy => h y (by simp [hy]))

theorem filterMap_ite_some {α : Type} (l : List α) (p : α → Bool) :
    (l.filterMap fun x => if p x then some x else none) = l.filter p := by
  induction l with
  | nil => rfl
  | cons x l ih => cases hx : p x <;> simp [hx, ih]

theorem linkOrder_perm {h : Hugr Op Meta} (ht : IsTree h) (hlk : LinksOk h) :
    (linkOrder h).Perm h.links := by
  have h1 : ∀ n, ((List.range (h.outs n)).flatMap fun port =>
      h.links.filter fun l => l.src = n && l.srcPort = port).Perm
      (h.links.filter fun l => l.src == n) := by
    intro n
    have := ports_perm h.links (fun l => l.src == n) Link.srcPort (h.outs n) (fun _ l => some l) ?_
    · simp only [List.filterMap_some] at this
      refine (List.Perm.of_eq ?_).trans (this.trans (List.Perm.of_eq ?_))
      · rfl
      · exact filterMap_ite_some _ _
    · intro l hl hs
      rw [beq_iff_eq] at hs; subst hs
      exact (hlk l hl).2.1
  unfold linkOrder
  refine (flatMap_perm_congr _ _ _ fun n _ => h1 n).trans ?_
  unfold Hugr.nodes
  rw [flatMap_filter_nil]
  · have := ports_perm h.links (fun _ => true) Link.src h.cap (fun _ l => some l)
      fun l hl _ => ht.in_range _ (hlk l hl).1
    simpa using this
  · intro n _ hn
    rw [List.filter_eq_nil_iff]
    intro l hl
    rw [beq_iff_eq]
    rintro rfl
    rw [(hlk l hl).1] at hn; cases hn

/-- What is written for one end of a link. -/
def serPort (I : SerInfo Op) (h : Hugr Op Meta) (L : List Nat) (n offset : Nat) (dir : Dir) : SerPort :=
  (L.idxOf n, if decide (offset < I.valuePorts (h.ops n) dir) ||
      I.staticPort (h.ops n) dir == some offset || !I.otherIsOrder (h.ops n) dir
    then some offset else none)

theorem serEdges_result (I : SerInfo Op) {h : Hugr Op Meta} (hlk : LinksOk h) {L : List Nat}
    (hp : Positions h L) :
    serEdges I h L = some ((linkOrder h).map fun l =>
      (serPort I h L l.src l.srcPort .outgoing, serPort I h L l.dst l.dstPort .incoming)) := by
  have : (h.nodes.flatMap fun n => (List.range (h.outs n)).flatMap fun port =>
      (h.linkedInputs n port).map fun t =>
        both (findOffset I h L n port .outgoing) (findOffset I h L t.1 t.2 .incoming)) =
      (linkOrder h).map fun l => both (findOffset I h L l.src l.srcPort .outgoing)
        (findOffset I h L l.dst l.dstPort .incoming) := by
    unfold linkOrder
    rw [List.map_flatMap]
    congr 1
    funext n
    rw [List.map_flatMap]
    congr 1
    funext port
    unfold Hugr.linkedInputs
    rw [List.map_map]
    apply List.map_congr_left
    intro l hl
    simp only [List.mem_filter, Bool.and_eq_true, decide_eq_true_eq] at hl
    obtain ⟨-, rfl, rfl⟩ := hl
    rfl
  unfold serEdges
  rw [this]
  apply allSome_map
  intro l hl
  have hl' : l ∈ h.links := by
    unfold linkOrder at hl
    simp only [List.mem_flatMap, List.mem_filter] at hl
    obtain ⟨_, _, _, _, hl, _⟩ := hl
    exact hl
  obtain ⟨h1, -, h2, -⟩ := hlk l hl'
  unfold findOffset
  rw [rekey_live hp h1, rekey_live hp h2]
  rfl

/-! ### Reading nodes -/

/-- The first `k` nodes were read. -/
structure ReadInv (h : Hugr Op Meta) (L : List Nat) (k : Nat) (g : Hugr Op Meta) : Prop where
  tree : IsTree g
  live : ∀ i, g.live i = true ↔ i < k
  ops : ∀ i x, i < k → L[i]? = some x → g.ops i = h.ops x
  ports : ∀ i x, i < k → L[i]? = some x → g.ins i = h.ins x ∧ g.outs i = h.outs x
  parent : ∀ i x, i < k → L[i]? = some x → g.hier.parent i = (h.hier.parent x).map L.idxOf
  children : ∀ i x, i < k → L[i]? = some x → g.hier.children i =
    ((L.take k).filter fun m => m ≠ h.moduleRoot ∧ h.hier.parent m = some x).map L.idxOf
  rest : g.links = [] ∧ g.moduleRoot = 0 ∧ g.entrypoint = 0 ∧ ∀ i, g.metadata i = none

theorem readInv_step (I : OpInfo Op) {h g : Hugr Op Meta} {L : List Nat} (hpos : Positions h L)
    (hpm : PortsMatch I h) {k : Nat} {x : Nat} (hk : 0 < k)
    (hx : L[k]? = some x) (hg : ReadInv h L k g) :
    ∃ g', g.addNodeWithParent I k (serNode h L x).1 (serNode h L x).2 = some g' ∧
      ReadInv h L (k + 1) g' := by
  have hr : x ≠ h.moduleRoot := by
    rintro rfl
    have h1 := hpos.idx k _ hx
    have h2 := hpos.idx 0 _ hpos.root
    omega
  have hxl := hpos.live k x hx
  obtain ⟨q, hq, hqk, hqL⟩ := hpos.parent k x hx hr
  have hsn : serNode h L x = (L.idxOf q, h.ops x) := by
    unfold serNode Hugr.getParent
    simp [hxl, hr, hq]
  rw [hsn]
  have hkd : g.live k = false := by
    cases hc : g.live k with
    | false => rfl
    | true => have := (hg.live k).1 hc; omega
  have hql : g.live (L.idxOf q) = true := (hg.live _).2 hqk
  obtain ⟨g', hg'⟩ := addNode_succeeds I hg.tree (h.ops x) hkd hql
  refine ⟨g', hg', ?_⟩
  have had := C20_add_node I g g' hg.tree k _ _ hql hg'
  have htake : L.take (k + 1) = L.take k ++ [x] := by rw [List.take_add_one, hx]; rfl
  obtain ⟨hp1, hp2⟩ := hpm x hxl
  refine ⟨addNodeWithParent_tree hg.tree hql hg', ?_, ?_, ?_, ?_, ?_, ?_⟩
  · intro i
    rw [had.live, Bool.or_eq_true, decide_eq_true_eq, hg.live]; omega
  · intro i y hi hy
    by_cases hik : i = k
    · subst hik; rw [hx] at hy; cases hy; exact had.operation
    · rw [(had.others i hik).1]; exact hg.ops i y (by omega) hy
  · intro i y hi hy
    by_cases hik : i = k
    · subst hik; rw [hx] at hy; cases hy; rw [hp1, hp2]; exact had.ports
    · rw [(had.others i hik).2.1, (had.others i hik).2.2.1]; exact hg.ports i y (by omega) hy
  · intro i y hi hy
    by_cases hik : i = k
    · subst hik; rw [hx] at hy; cases hy; rw [had.parent, hq]; rfl
    · rw [(had.others i hik).2.2.2.1]; exact hg.parent i y (by omega) hy
  · intro i y hi hy
    rw [htake, List.filter_append, List.map_append]
    by_cases hik : i = k
    · subst hik; rw [hx] at hy; cases hy
      rw [had.no_children]
      symm
      rw [List.append_eq_nil_iff, List.map_eq_nil_iff, List.map_eq_nil_iff, List.filter_eq_nil_iff,
        List.filter_eq_nil_iff]
      constructor
      · intro m hm
        simp only [decide_eq_true_eq]
        rintro ⟨hmr, hmp⟩
        obtain ⟨j, hj, hj'⟩ := List.getElem_of_mem hm
        simp only [List.length_take] at hj
        have hjm : L[j]? = some m := by
          rw [List.getElem_take] at hj'
          rw [List.getElem?_eq_getElem (by omega), hj']
        obtain ⟨q', hq', hlt, -⟩ := hpos.parent j m hjm hmr
        rw [hmp] at hq'; cases hq'
        rw [hpos.idx i x hx] at hlt; omega
      · intro m hm
        rw [List.mem_singleton] at hm; subst hm
        simp only [decide_eq_true_eq]
        rintro ⟨-, hmp⟩
        rw [hq] at hmp; cases hmp
        rw [hpos.idx i _ hx] at hqk; omega
    · have hlt : i < k := by omega
      by_cases hiq : i = L.idxOf q
      · subst hiq
        rw [hqL] at hy; cases hy
        rw [had.target, hg.children _ _ hlt hqL]
        congr 1
        simp [hr, hq, hpos.idx k x hx]
      · rw [(had.others i hik).2.2.2.2 hiq, hg.children i y hlt hy]
        have hne : q ≠ y := by
          rintro rfl
          exact hiq (hpos.idx i _ hy).symm
        simp [hq, hne]
  · obtain ⟨h1, h2, h3, h4⟩ := hg.rest
    rw [had.links, had.metadata, had.roots.1, had.roots.2]
    exact ⟨h1, h2, h3, h4⟩

theorem readNodes_inv (I : OpInfo Op) {h : Hugr Op Meta} {L : List Nat} (hpos : Positions h L)
    (hpm : PortsMatch I h) (xs : List Nat) (k : Nat) (hk : 0 < k) (hxs : L.drop k = xs)
    (g : Hugr Op Meta) (hg : ReadInv h L k g) :
    ∃ g', readNodes I k (xs.map (serNode h L)) g = some g' ∧ ReadInv h L (k + xs.length) g' := by
  induction xs generalizing k g with
  | nil => exact ⟨g, rfl, hg⟩
  | cons x xs ih =>
    have hx : L[k]? = some x := by
      have : (L.drop k)[0]? = some x := by rw [hxs]; rfl
      rwa [List.getElem?_drop] at this
    have hd : L.drop (k + 1) = xs := by
      rw [← List.drop_drop, hxs]; rfl
    obtain ⟨g1, h1, h2⟩ := readInv_step I hpos hpm hk hx hg
    obtain ⟨g2, h3, h4⟩ := ih (k + 1) (by omega) hd g1 h2
    refine ⟨g2, ?_, ?_⟩
    · rw [List.map_cons]
      show readNodes I k (((serNode h L x).1, (serNode h L x).2) :: xs.map (serNode h L)) g = _
      unfold readNodes
      rw [h1]; exact h3
    · rw [List.length_cons]
      rw [show k + (xs.length + 1) = k + 1 + xs.length by omega]; exact h4

/-! ### Reading metadata and edges -/

theorem readMetadata_eq (ms : List (Option (List (String × Meta)))) (k : Nat) (g : Hugr Op Meta)
    (hg : ∀ i, k ≤ i → g.metadata i = none) :
    ∃ md, readMetadata k ms g = { g with metadata := md } ∧
      (∀ i, i < k → md i = g.metadata i) ∧ (∀ i m, ms[i]? = some m → md (k + i) = m) := by
  induction ms generalizing k g with
  | nil => exact ⟨g.metadata, rfl, fun _ _ => rfl, by simp⟩
  | cons m ms ih =>
    cases m with
    | none =>
      obtain ⟨md, h1, h2, h3⟩ := ih (k + 1) g fun i hi => hg i (by omega)
      refine ⟨md, h1, fun i hi => h2 i (by omega), ?_⟩
      intro i m hm
      cases i with
      | zero =>
        simp only [List.getElem?_cons_zero, Option.some.injEq] at hm
        subst hm
        rw [Nat.add_zero, h2 k (by omega)]; exact hg k (by omega)
      | succ i =>
        rw [List.getElem?_cons_succ] at hm
        have := h3 i m hm
        rwa [show k + 1 + i = k + (i + 1) by omega] at this
    | some v =>
      have hg' : ∀ i, k + 1 ≤ i → upd g.metadata k (some v) i = none := by
        intro i hi
        simp only [upd]; rw [if_neg (by omega)]; exact hg i (by omega)
      obtain ⟨md, h1, h2, h3⟩ := ih (k + 1) { g with metadata := upd g.metadata k (some v) } hg'
      · refine ⟨md, h1, ?_, ?_⟩
        · intro i hi
          rw [h2 i (by omega)]
          simp only [upd]; rw [if_neg (by omega)]
        · intro i m hm
          cases i with
          | zero =>
            simp only [List.getElem?_cons_zero, Option.some.injEq] at hm
            subst hm
            rw [Nat.add_zero, h2 k (by omega)]; simp [upd]
          | succ i =>
            rw [List.getElem?_cons_succ] at hm
            have := h3 i m hm
            rwa [show k + 1 + i = k + (i + 1) by omega] at this

theorem readEdges_ok (I : SerInfo Op) {α : Type} (ls : List α) (f : α → SerPort × SerPort) (r : α → Link)
    (g : Hugr Op Meta)
    (hok : ∀ l ∈ ls, g.live (r l).src = true ∧ (r l).srcPort < g.outs (r l).src ∧
      g.live (r l).dst = true ∧ (r l).dstPort < g.ins (r l).dst)
    (hf : ∀ l ∈ ls, (f l).1.1 = (r l).src ∧ (f l).2.1 = (r l).dst ∧
      portOffset I g (f l).1 .outgoing = some (r l).srcPort ∧
      portOffset I g (f l).2 .incoming = some (r l).dstPort) :
    readEdges I (ls.map f) g = .ok { g with links := g.links ++ ls.map r } := by
  induction ls generalizing g with
  | nil => simp [readEdges]
  | cons l ls ih =>
    obtain ⟨h1, h2, h3, h4⟩ := hok l (by simp)
    obtain ⟨h5, h6, h7, h8⟩ := hf l (by simp)
    rw [List.map_cons]
    show readEdges I (((f l).1, (f l).2) :: ls.map f) g = _
    unfold readEdges
    rw [h5, h6, h1, h3, h7, h8]
    simp only [Bool.not_true, Bool.false_eq_true, if_false]
    have hc : g.connect ⟨(r l).src, (r l).srcPort, (r l).dst, (r l).dstPort⟩ = some { g with links := g.links ++ [r l] } := by
      unfold Hugr.connect
      simp [h1, h2, h3, h4]
    rw [hc]
    simp only []
    rw [ih]
    · simp
    · exact fun y hy => hok y (by simp [hy])
    · exact fun y hy => hf y (by simp [hy])

/-! ## The property -/

/-- **C25** Writing a Hugr and reading it back: both succeed, and the result is the Hugr renumbered
in breadth-first order, with the metadata of every node. The conditions are those `validate` checks:
the hierarchy is a tree whose root is a module, and every node has the ports of its operation. -/
theorem C25_round_trip (I : SerInfo Op) (hI : I.Law) (h : Hugr Op Meta) (ht : IsTree h)
    (hlk : LinksOk h) (hpm : PortsMatch I.toOpInfo h)
    (hmod : I.isModule (h.ops h.moduleRoot) = true) :
    ∃ s h', h.serialize I = some s ∧ deserialize I s = .ok h' ∧
      Enumerates h h.moduleRoot (h.descendants h.moduleRoot) ∧
      Renumbered h (h.descendants h.moduleRoot) h' ∧
      (∀ i x : Nat, (h.descendants h.moduleRoot)[i]? = some x → h'.metadata i = h.metadata x) ∧
      IsTree h' ∧ LinksOk h' := by
  have hen := descendants_enumerates ht ht.root_live
  generalize hL : h.descendants h.moduleRoot = L at hen
  have hpos := positions ht hen
  have hes := serEdges_result I hlk hpos
  have hek := rekey_live hpos ht.entry_live
  obtain ⟨L', hL'⟩ : ∃ L', L = h.moduleRoot :: L' := by
    have := hen.head
    cases L with
    | nil => cases this
    | cons a L' => simp only [List.head?_cons, Option.some.injEq] at this; exact ⟨L', by rw [this]⟩
  -- reading the nodes
  obtain ⟨hr1, hr2⟩ := hpm _ ht.root_live
  obtain ⟨hm1, hm2⟩ := hI.module_ports _ hmod
  have hi1 : ReadInv h L 1 (Hugr.new I.toOpInfo (h.ops h.moduleRoot) : Hugr Op Meta) := by
    refine ⟨(new_tree _ _).1, ?_, ?_, ?_, ?_, ?_, rfl, rfl, rfl, fun _ => rfl⟩
    · intro i; simp only [Hugr.new, beq_iff_eq]; omega
    · intro i x hi hx
      have : i = 0 := by omega
      subst this; rw [hpos.root] at hx; cases hx
      simp [Hugr.new, upd]
    · intro i x hi hx
      have : i = 0 := by omega
      subst this; rw [hpos.root] at hx; cases hx
      rw [hr1, hr2, hm1, hm2]; exact ⟨rfl, rfl⟩
    · intro i x hi hx
      have : i = 0 := by omega
      subst this; rw [hpos.root] at hx; cases hx
      rw [ht.root_top]; rfl
    · intro i x hi hx
      have : i = 0 := by omega
      subst this; rw [hpos.root] at hx; cases hx
      rw [hL']
      simp [Hugr.new]
  obtain ⟨g, hg, hgi⟩ := readNodes_inv I.toOpInfo hpos hpm L' 1 (by omega) (by rw [hL']; rfl) _ hi1
  have hlen : 1 + L'.length = L.length := by rw [hL']; simp; omega
  rw [hlen] at hgi
  obtain ⟨hg1, hg2, hg3, hg4⟩ := hgi.rest
  have hidxlt : ∀ x, h.live x = true → L.idxOf x < L.length := fun x hx =>
    (List.getElem?_eq_some_iff.1 (hpos.at_idx x hx)).1
  have hel : g.live (L.idxOf h.entrypoint) = true := (hgi.live _).2 (hidxlt _ ht.entry_live)
  obtain ⟨md, hmd1, -, hmd3⟩ := readMetadata_eq (L.map h.metadata) 0
    { g with entrypoint := L.idxOf h.entrypoint } fun i _ => hg4 i
  -- reading the edges
  have hlo : ∀ l ∈ linkOrder h, l ∈ h.links := fun l hl => (linkOrder_perm ht hlk).subset hl
  have hlinkok : ∀ l ∈ h.links, g.live (L.idxOf l.src) = true ∧ l.srcPort < g.outs (L.idxOf l.src) ∧
      g.live (L.idxOf l.dst) = true ∧ l.dstPort < g.ins (L.idxOf l.dst) := by
    intro l hl
    obtain ⟨h1, h2, h3, h4⟩ := hlk l hl
    refine ⟨(hgi.live _).2 (hidxlt _ h1), ?_, (hgi.live _).2 (hidxlt _ h3), ?_⟩
    · rw [(hgi.ports _ _ (hidxlt _ h1) (hpos.at_idx _ h1)).2]; exact h2
    · rw [(hgi.ports _ _ (hidxlt _ h3) (hpos.at_idx _ h3)).1]; exact h4
  have hends : ∀ l ∈ linkOrder h,
      (serPort I h L l.src l.srcPort .outgoing).1 = (Link.rename L.idxOf l).src ∧
      (serPort I h L l.dst l.dstPort .incoming).1 = (Link.rename L.idxOf l).dst ∧
      portOffset I { g with entrypoint := L.idxOf h.entrypoint, metadata := md }
        (serPort I h L l.src l.srcPort .outgoing) .outgoing = some (Link.rename L.idxOf l).srcPort ∧
      portOffset I { g with entrypoint := L.idxOf h.entrypoint, metadata := md }
        (serPort I h L l.dst l.dstPort .incoming) .incoming = some (Link.rename L.idxOf l).dstPort := by
    intro l hl
    obtain ⟨h1, h2, h3, h4⟩ := hlk l (hlo l hl)
    obtain ⟨hs1, hs2⟩ := hpm _ h1
    obtain ⟨hd1, hd2⟩ := hpm _ h3
    have ho1 := hgi.ops _ _ (hidxlt _ h1) (hpos.at_idx _ h1)
    have ho3 := hgi.ops _ _ (hidxlt _ h3) (hpos.at_idx _ h3)
    refine ⟨rfl, rfl, ?_, ?_⟩
    · unfold portOffset serPort
      simp only [ho1]
      split
      · next heq =>
        split at heq
        · cases heq; rfl
        · cases heq
      · next heq =>
        split at heq
        · cases heq
        · next hc =>
          simp only [Bool.or_eq_true, decide_eq_true_eq, beq_iff_eq, Bool.not_eq_true', not_or,
            Bool.not_eq_false] at hc
          exact hI.order_out _ _ (by rw [← hs2]; exact h2) hc.1.1 hc.1.2 hc.2
    · unfold portOffset serPort
      simp only [ho3]
      split
      · next heq =>
        split at heq
        · cases heq; rfl
        · cases heq
      · next heq =>
        split at heq
        · cases heq
        · next hc =>
          simp only [Bool.or_eq_true, decide_eq_true_eq, beq_iff_eq, Bool.not_eq_true', not_or,
            Bool.not_eq_false] at hc
          exact hI.order_in _ _ (by rw [← hd1]; exact h4) hc.1.1 hc.1.2 hc.2
  have hre := readEdges_ok I (linkOrder h)
    (fun l => (serPort I h L l.src l.srcPort .outgoing, serPort I h L l.dst l.dstPort .incoming))
    (Link.rename L.idxOf) { g with entrypoint := L.idxOf h.entrypoint, metadata := md }
    (fun l hl => hlinkok l (hlo l hl)) hends
  have hrn : h.getParent h.moduleRoot = none := by unfold Hugr.getParent; simp
  refine ⟨{ nodes := L.map (serNode h L),
            edges := (linkOrder h).map fun l =>
              (serPort I h L l.src l.srcPort .outgoing, serPort I h L l.dst l.dstPort .incoming),
            metadata := some (L.map h.metadata),
            entrypoint := some (L.idxOf h.entrypoint) },
    { g with
      entrypoint := L.idxOf h.entrypoint
      metadata := md
      links := g.links ++ (linkOrder h).map (Link.rename L.idxOf) }, ?_, ?_, hen, ?_, ?_, ?_, ?_⟩
  rotate_left
  · unfold deserialize
    have h0 : (L.map (serNode h L)) = (0, h.ops h.moduleRoot) :: L'.map (serNode h L) := by
      conv_lhs => rw [hL', List.map_cons]
      rw [← hL']
      congr 1
      unfold serNode
      rw [hrn, Option.getD_none, hpos.idx 0 _ hpos.root]
    simp only [h0, hmod, hg]
    simp only [Hugr.setEntrypoint, hel, if_true, Option.getD_some, hmd1, ne_eq, not_true_eq_false,
      if_false, Bool.not_true, Bool.false_eq_true]
    exact hre
  · refine ⟨hgi.live, ?_, ?_, ?_, ?_, ?_, ?_, ?_⟩
    · exact fun i x hx => hgi.ops i x (List.getElem?_eq_some_iff.1 hx).1 hx
    · exact fun i x hx => hgi.ports i x (List.getElem?_eq_some_iff.1 hx).1 hx
    · exact fun i x hx => hgi.parent i x (List.getElem?_eq_some_iff.1 hx).1 hx
    · intro i x hx
      show g.hier.children i = _
      rw [hgi.children i x (List.getElem?_eq_some_iff.1 hx).1 hx, List.take_length,
        hen.siblings x (List.mem_of_getElem? hx)]
    · show (g.links ++ _).Perm _
      rw [hg1, List.nil_append]
      exact (linkOrder_perm ht hlk).map _
    · show L[g.moduleRoot]? = _
      rw [hg2]; exact hpos.root
    · exact hpos.at_idx _ ht.entry_live
  · intro i x hx
    have := hmd3 i (h.metadata x) (by rw [List.getElem?_map, hx]; rfl)
    rwa [Nat.zero_add] at this
  · refine ⟨hgi.tree.root_live, hel, hgi.tree.root_top, hgi.tree.has_parent, hgi.tree.parent_live,
      hgi.tree.child_iff, hgi.tree.child_once, hgi.tree.reaches_root, hgi.tree.in_range⟩
  · intro l hl
    have hl' : l ∈ g.links ++ (linkOrder h).map (Link.rename L.idxOf) := hl
    rw [hg1, List.nil_append, List.mem_map] at hl'
    obtain ⟨l0, hl0, rfl⟩ := hl'
    exact hlinkok l0 (hlo l0 hl0)
  · unfold Hugr.serialize
    simp only [hL]
    rw [serNodes_result ht hen]
    simp only []
    rw [hes, hek]
    have : allSome (L.map fun x => some (serNode h L x)) = some (L.map (serNode h L)) :=
      allSome_map _ _ _ fun _ _ => rfl
    rw [this]

end Verif.Graph
