import Verif.Patch.ReplaceApplySpec
import Verif.Patch.ReplacementLemmas

/-!
# Lemmas on applying a replacement
-/
namespace Verif.Patch

open Verif.Graph Verif.Ops Verif.Passes Verif.Validate Verif.Dataflow

variable {Meta : Type} {h : Hugr Ops.Op Meta}

/-! ## Edges -/

/-- The same with other links. -/
def withLinks (h : Hugr Ops.Op Meta) (L : List Link) : Hugr Ops.Op Meta := { h with links := L }

/-- A port for values or static edges. -/
def DataPort (h : Hugr Ops.Op Meta) (n port : Nat) : Prop :=
  ∃ k, ((h.ops n).ports .incoming)[port]? = some k ∧ (k.isValue = true ∨ k.isStatic = true)

/-- All that is needed for adding the edge. -/
structure EdgeFits (h : Hugr Ops.Op Meta) (e : NewEdge) : Prop where
  src : h.live e.src = true
  tgt : h.live e.tgt = true
  srcFits : SrcFits h e
  tgtFits : TgtFits h e
  there : PortThere h e

theorem into_data {e : NewEdge} (hf : TgtFits h e) {n port : Nat} (hi : e.into n port) : DataPort h n port := by
  obtain ⟨rfl, ⟨s, hk⟩ | ⟨s, hk⟩⟩ := hi
  · unfold TgtFits at hf
    rw [hk] at hf
    obtain ⟨t, ht⟩ := hf
    exact ⟨_, ht, .inl rfl⟩
  · unfold TgtFits at hf
    rw [hk] at hf
    obtain ⟨k, hk, ⟨t, rfl⟩ | ⟨t, rfl⟩⟩ := hf
    · exact ⟨_, hk, .inr rfl⟩
    · exact ⟨_, hk, .inr rfl⟩

/-- A new link at a port for values comes from an edge into it. -/
theorem makes_into {e : NewEdge} (hf : TgtFits h e) {l : Link} (hm : e.Makes h l) (hd : DataPort h l.dst l.dstPort) :
    e.into l.dst l.dstPort := by
  obtain ⟨k, hk, hv⟩ := hd
  obtain ⟨_, h2, h3⟩ := hm
  refine ⟨h2.symm, ?_⟩
  unfold TgtFits at hf
  rw [h2] at hk
  cases he : e.kind with
  | order =>
    rw [he] at h3
    rw [h3.2] at hk
    cases hk
    rcases hv with hv | hv <;> cases hv
  | value s t =>
    rw [he] at h3
    rw [h3.2]
    exact .inl ⟨s, rfl⟩
  | static s t =>
    rw [he] at h3
    rw [h3.2]
    exact .inr ⟨s, rfl⟩
  | controlFlow s =>
    rw [he] at h3 hf
    rw [h3.2, hf] at hk
    cases hk
    rcases hv with hv | hv <;> cases hv

theorem no_flow {op : Ops.Op} {dir : Ops.Dir} (ho : op.otherPortKind dir = some .stateOrder) : .controlFlow ∉ op.ports dir := by
  cases op <;> cases dir <;> simp [Op.ports] <;> simp [Op.otherPortKind, Op.otherInput, Op.otherOutput] at ho

theorem order_index {op : Ops.Op} (ht : op.tagOk = true) {dir : Ops.Dir} (ho : .stateOrder ∈ op.ports dir) :
    ∃ i, op.otherPort dir = .ok (some i) ∧ (op.ports dir)[i]? = some .stateOrder := by
  rw [C10_other_port op dir ht]
  have hk := (order_ports op dir).2 ho
  cases hi : (op.ports dir).findIdx? Kind.isOther with
  | none =>
    have := List.findIdx?_eq_none_iff.1 hi _ ho
    cases this
  | some i =>
    refine ⟨i, rfl, ?_⟩
    obtain ⟨hlt, hp, _⟩ := List.findIdx?_eq_some_iff_getElem.1 hi
    rw [List.getElem?_eq_getElem hlt]
    have hmem : (op.ports dir)[i] ∈ op.ports dir := List.getElem_mem hlt
    congr 1
    revert hp hmem
    generalize (op.ports dir)[i] = k
    intro hp hmem
    cases k <;> simp [Kind.isOther] at hp
    · exact absurd hmem (no_flow hk)
    · rfl

theorem connect_ok {L : List Link} {l : Link} (h1 : h.live l.src = true) (h2 : l.srcPort < h.outs l.src)
    (h3 : h.live l.dst = true) (h4 : l.dstPort < h.ins l.dst) :
    (withLinks h L).connect l = some (withLinks h (L ++ [l])) := by
  unfold Hugr.connect
  have : ((withLinks h L).live l.src && decide (l.srcPort < (withLinks h L).outs l.src) &&
      (withLinks h L).live l.dst && decide (l.dstPort < (withLinks h L).ins l.dst)) = true := by
    simp [withLinks, h1, h2, h3, h4]
  rw [if_pos this]
  rfl

theorem disconnect_ok {L : List Link} {n port : Nat} (h1 : h.live n = true) (h2 : port < h.ins n) :
    (withLinks h L).disconnect n .incoming port =
      some (withLinks h (L.filter fun l => !(l.dst == n && l.dstPort == port))) := by
  unfold Hugr.disconnect
  have : ((withLinks h L).live n && decide (port < (withLinks h L).numPorts n .incoming)) = true := by
    simp [withLinks, Hugr.numPorts, h1, h2]
  rw [if_pos this]
  rfl

/-- The links to a port, in a list of links. -/
def portLinks (L : List Link) (n port : Nat) : List Link := L.filter fun l => l.dst = n && l.dstPort = port

theorem portLinks_append {L : List Link} {l : Link} {n port : Nat} (hl : ¬ (l.dst = n ∧ l.dstPort = port)) :
    portLinks (L ++ [l]) n port = portLinks L n port := by
  unfold portLinks
  rw [List.filter_append]
  have : ([l].filter fun l => l.dst = n && l.dstPort = port) = [] := by
    simp only [List.filter_cons, List.filter_nil]
    rw [if_neg]
    simpa using hl
  rw [this, List.append_nil]

theorem portLinks_filter {L : List Link} {a b n port : Nat} (hne : ¬ (n = a ∧ port = b)) :
    portLinks (L.filter fun l => !(l.dst == a && l.dstPort == b)) n port = portLinks L n port := by
  unfold portLinks
  rw [List.filter_filter]
  apply List.filter_congr
  intro l _
  by_cases h1 : l.dst = n
  · by_cases h2 : l.dstPort = port
    · subst h1 h2
      have : ¬ l.dst = a ∨ ¬ l.dstPort = b := not_and_or.1 hne
      simpa using this
    · simp [h2]
  · simp [h1]

/-- The source of the only link to the port is below one of the nodes. -/
def FromLegal (h : Hugr Ops.Op Meta) (legal : List Nat) (L : List Link) (n port : Nat) : Prop :=
  ∃ l, portLinks L n port = [l] ∧ ∃ y ∈ legal, Above h.hier.parent l.src y

theorem checkExisting_links (ht : IsTree h) {legal : List Nat} {which : WhichEdge} {e : NewEdge} {L : List Link}
    (hl : ∀ n port, e.into n port → FromLegal h legal L n port) :
    checkExisting (withLinks h L) legal which e = .ok () := by
  have ht' : IsTree (withLinks h L) := ⟨ht.1, ht.2, ht.3, ht.4, ht.5, ht.6, ht.7, ht.8, ht.9⟩
  have key : ∀ t, FromLegal h legal L e.tgt t → (match singleLinkedOutput (withLinks h L) e.tgt t with
      | some s => ensure (descendsFrom (withLinks h L) legal ((withLinks h L).cap + 1) s.1) (.noRemovedEdge which)
      | none => .err (.noRemovedEdge which)) = .ok () := by
    rintro t ⟨l, hl1, hl2⟩
    have hx : (withLinks h L).linkedOutputs e.tgt t = (portLinks L e.tgt t).map fun l => (l.src, l.srcPort) := rfl
    unfold singleLinkedOutput
    rw [hx, hl1]
    simp only [List.map_cons, List.map_nil]
    exact ensure_ok.2 ((descendsFrom_spec ht' legal _ [] l.src List.nodup_nil (by simp) (by simp)).2 hl2)
  unfold checkExisting
  cases hk : e.kind with
  | order => rfl
  | value s t => exact key t (hl _ _ ⟨rfl, .inl ⟨s, hk⟩⟩)
  | static s t => exact key t (hl _ _ ⟨rfl, .inr ⟨s, hk⟩⟩)
  | controlFlow s => rfl

theorem lt_of_some {α : Type} {l : List α} {i : Nat} {a : α} (e : l[i]? = some a) : i < l.length :=
  (List.getElem?_eq_some_iff.1 e).1

/-- One edge is added. -/
theorem transferTo_ok (ht : IsTree h) (hp : PortsFit h) {which : WhichEdge} {legal : Option (List Nat)} {e : NewEdge}
    (he : EdgeFits h e) {L : List Link}
    (hl : ∀ R, legal = some R → ∀ n port, e.into n port → FromLegal h R L n port) :
    ∃ l, e.Makes h l ∧ ∃ L', transferTo (withLinks h L) which legal e = .ok (withLinks h (L' ++ [l])) ∧
      (∀ k, k ∈ L' ↔ k ∈ L ∧ (legal.isSome = true → ¬ e.into k.dst k.dstPort)) ∧
      ∀ n port, ¬ e.into n port → portLinks L' n port = portLinks L n port := by
  obtain ⟨ts, is, os⟩ := hp _ he.src
  obtain ⟨tt, it, ot⟩ := hp _ he.tgt
  have c1 : checkSrc (withLinks h L) which e = .ok () := (checkSrc_ok (h := withLinks h L) ts).2 he.srcFits
  have c2 : checkTgt (withLinks h L) which e = .ok () := (checkTgt_ok (h := withLinks h L) tt).2 he.tgtFits
  have hs := he.srcFits
  have htt := he.tgtFits
  have hth := he.there
  have start : ∀ {x : Hugr Ops.Op Meta}, placeEdge (withLinks h L) which legal e = .ok x →
      transferTo (withLinks h L) which legal e = .ok x := by
    intro x hx
    unfold transferTo
    rw [Vet.andThen_ok]
    refine ⟨(), ensure_ok.2 he.src, ?_⟩
    rw [Vet.andThen_ok]
    refine ⟨(), ensure_ok.2 he.tgt, ?_⟩
    rw [c1, c2]
    exact hx
  unfold SrcFits at hs
  unfold TgtFits at htt
  have data : ∀ s t, (e.kind = .value s t ∨ e.kind = .static s t) → s < h.outs e.src → t < h.ins e.tgt →
      e.Makes h ⟨e.src, s, e.tgt, t⟩ → (∀ n port, e.into n port ↔ n = e.tgt ∧ port = t) →
      ∃ l, e.Makes h l ∧ ∃ L', transferTo (withLinks h L) which legal e = .ok (withLinks h (L' ++ [l])) ∧
      (∀ k, k ∈ L' ↔ k ∈ L ∧ (legal.isSome = true → ¬ e.into k.dst k.dstPort)) ∧
      ∀ n port, ¬ e.into n port → portLinks L' n port = portLinks L n port := by
    intro s t hk h1 h2 hm hin
    refine ⟨_, hm, ?_⟩
    cases legal with
    | none =>
      refine ⟨L, start ?_, by simp, by simp⟩
      unfold placeEdge
      rcases hk with hk | hk <;> rw [hk] <;> simp only [] <;> rw [connect_ok (l := ⟨e.src, s, e.tgt, t⟩) he.src h1 he.tgt h2] <;> rfl
    | some R =>
      refine ⟨L.filter fun l => !(l.dst == e.tgt && l.dstPort == t), start ?_, ?_, ?_⟩
      · have hce := checkExisting_links (which := which) ht (hl R rfl)
        unfold placeEdge
        rcases hk with hk | hk <;> rw [hk] <;> simp only [] <;>
          rw [hce, disconnect_ok he.tgt h2] <;> simp only [Vet.andThen, Vet.orPanic] <;>
          rw [connect_ok (l := ⟨e.src, s, e.tgt, t⟩) he.src h1 he.tgt h2]
      · intro k
        rw [List.mem_filter]
        simp [hin]
        tauto
      · intro n port hn
        rw [hin] at hn
        exact portLinks_filter hn
  cases hk : e.kind with
  | order =>
    rw [hk] at hs htt
    obtain ⟨i, hi1, hi2⟩ := order_index ts hs
    obtain ⟨j, hj1, hj2⟩ := order_index tt htt
    have hno : ∀ n port, ¬ e.into n port := by
      rintro n port ⟨_, ⟨s, h'⟩ | ⟨s, h'⟩⟩ <;> rw [hk] at h' <;> cases h'
    refine ⟨⟨e.src, i, e.tgt, j⟩, ⟨rfl, rfl, by rw [hk]; exact ⟨hi2, hj2⟩⟩, L, start ?_, fun k => ⟨fun a => ⟨a, fun _ => hno _ _⟩, fun a => a.1⟩,
      fun _ _ _ => rfl⟩
    unfold placeEdge
    rw [hk]
    simp only []
    have : addOtherEdge (withLinks h L) e.src e.tgt = (withLinks h L).connect ⟨e.src, i, e.tgt, j⟩ := by
      unfold addOtherEdge
      rw [show (withLinks h L).ops e.src = h.ops e.src from rfl, show (withLinks h L).ops e.tgt = h.ops e.tgt from rfl, hi1, hj1]
    rw [this, connect_ok (l := ⟨e.src, i, e.tgt, j⟩) he.src (os ▸ lt_of_some hi2) he.tgt (it ▸ lt_of_some hj2)]
    rfl
  | value s t =>
    rw [hk] at hs htt
    obtain ⟨_, hs⟩ := hs
    obtain ⟨_, htt⟩ := htt
    refine data s t (.inl hk) (os ▸ lt_of_some hs) (it ▸ lt_of_some htt) ⟨rfl, rfl, by rw [hk]; exact ⟨rfl, rfl⟩⟩ ?_
    intro n port
    constructor
    · rintro ⟨h1, ⟨s', h'⟩ | ⟨s', h'⟩⟩ <;> rw [hk] at h' <;> cases h'
      exact ⟨h1.symm, rfl⟩
    · rintro ⟨rfl, rfl⟩
      exact ⟨rfl, .inl ⟨s, hk⟩⟩
  | static s t =>
    rw [hk] at hs htt
    obtain ⟨_, hs, _⟩ := hs
    obtain ⟨_, htt, _⟩ := htt
    refine data s t (.inr hk) (os ▸ lt_of_some hs) (it ▸ lt_of_some htt) ⟨rfl, rfl, by rw [hk]; exact ⟨rfl, rfl⟩⟩ ?_
    intro n port
    constructor
    · rintro ⟨h1, ⟨s', h'⟩ | ⟨s', h'⟩⟩ <;> rw [hk] at h' <;> cases h'
      exact ⟨h1.symm, rfl⟩
    · rintro ⟨rfl, rfl⟩
      exact ⟨rfl, .inr ⟨s, hk⟩⟩
  | controlFlow s =>
    rw [hk] at htt
    have hno : ∀ n port, ¬ e.into n port := by
      rintro n port ⟨_, ⟨s, h'⟩ | ⟨s, h'⟩⟩ <;> rw [hk] at h' <;> cases h'
    refine ⟨⟨e.src, s, e.tgt, 0⟩, ⟨rfl, rfl, by rw [hk]; exact ⟨rfl, rfl⟩⟩, L, start ?_,
      fun k => ⟨fun a => ⟨a, fun _ => hno _ _⟩, fun a => a.1⟩, fun _ _ _ => rfl⟩
    unfold placeEdge
    rw [hk]
    simp only []
    rw [connect_ok (l := ⟨e.src, s, e.tgt, 0⟩) he.src (hth s hk) he.tgt (it ▸ lt_of_some htt)]
    rfl

/-- All edges are added. -/
theorem edges_ok (ht : IsTree h) (hp : PortsFit h) {which : WhichEdge} {legal : Option (List Nat)}
    {ts tt : Nat → Option Nat} {σ τ : Nat → Nat} : ∀ (es : List NewEdge) (L : List Link),
    (∀ e ∈ es, ts e.src = some (σ e.src) ∧ tt e.tgt = some (τ e.tgt) ∧ EdgeFits h ⟨σ e.src, τ e.tgt, e.kind⟩) →
    (∀ R, legal = some R → (es.Pairwise fun a b => ∀ n port, NewEdge.into ⟨σ a.src, τ a.tgt, a.kind⟩ n port →
        ¬ NewEdge.into ⟨σ b.src, τ b.tgt, b.kind⟩ n port) ∧
      ∀ e ∈ es, ∀ n port, NewEdge.into ⟨σ e.src, τ e.tgt, e.kind⟩ n port → FromLegal h R L n port) →
    ∃ L', vetEach (transferEdge which ts tt legal) (withLinks h L) es = .ok (withLinks h L') ∧
      (∀ l ∈ L', l ∈ L ∨ ∃ e ∈ es, NewEdge.Makes h ⟨σ e.src, τ e.tgt, e.kind⟩ l) ∧
      (∀ l ∈ L, (legal.isSome = true → ∀ e ∈ es, ¬ NewEdge.into ⟨σ e.src, τ e.tgt, e.kind⟩ l.dst l.dstPort) → l ∈ L') ∧
      (legal.isSome = true → ∀ e ∈ es, ∀ l ∈ L', NewEdge.into ⟨σ e.src, τ e.tgt, e.kind⟩ l.dst l.dstPort →
        NewEdge.Makes h ⟨σ e.src, τ e.tgt, e.kind⟩ l) ∧
      (∀ e ∈ es, ∃ l ∈ L', NewEdge.Makes h ⟨σ e.src, τ e.tgt, e.kind⟩ l) ∧
      ∀ n port, DataPort h n port → (∀ e ∈ es, ¬ NewEdge.into ⟨σ e.src, τ e.tgt, e.kind⟩ n port) →
        portLinks L' n port = portLinks L n port := by
  intro es
  induction es with
  | nil =>
    intro L _ _
    exact ⟨L, rfl, fun l hl => .inl hl, fun l hl _ => hl, by simp, by simp, fun _ _ _ _ => rfl⟩
  | cons e es ih =>
    intro L hc hlg
    obtain ⟨t1, t2, t3⟩ := hc e List.mem_cons_self
    obtain ⟨l0, hm, L1, hx, hmem, hport⟩ := transferTo_ok ht hp (which := which) (legal := legal) t3 (L := L)
      (fun R hR => (hlg R hR).2 e List.mem_cons_self)
    have keep : ∀ n port, DataPort h n port → ¬ NewEdge.into ⟨σ e.src, τ e.tgt, e.kind⟩ n port →
        portLinks (L1 ++ [l0]) n port = portLinks L n port := by
      intro n port hd hn
      rw [portLinks_append, hport n port hn]
      rintro ⟨rfl, rfl⟩
      exact hn (makes_into t3.tgtFits hm hd)
    obtain ⟨L', h0, h1, h2, h3, h4, h5⟩ := ih (L1 ++ [l0]) (fun a ha => hc a (List.mem_cons_of_mem _ ha)) (by
      intro R hR
      obtain ⟨p1, p2⟩ := hlg R hR
      obtain ⟨p3, p4⟩ := List.pairwise_cons.1 p1
      refine ⟨p4, fun a ha n port hi => ?_⟩
      obtain ⟨l, q1, q2⟩ := p2 a (List.mem_cons_of_mem _ ha) n port hi
      refine ⟨l, ?_, q2⟩
      rw [keep n port (into_data (hc a (List.mem_cons_of_mem _ ha)).2.2.tgtFits hi) (fun hi' => p3 a ha n port hi' hi)]
      exact q1)
    have apart : legal.isSome = true → ∀ a ∈ es, ∀ n port, NewEdge.into ⟨σ e.src, τ e.tgt, e.kind⟩ n port →
        ¬ NewEdge.into ⟨σ a.src, τ a.tgt, a.kind⟩ n port := by
      intro hs a ha
      obtain ⟨R, hR⟩ := Option.isSome_iff_exists.1 hs
      exact (List.pairwise_cons.1 (hlg R hR).1).1 a ha
    have l0in : l0 ∈ L' := by
      refine h2 l0 (by simp) fun hs a ha hi => ?_
      exact apart hs a ha _ _ (makes_into t3.tgtFits hm (into_data (hc a (List.mem_cons_of_mem _ ha)).2.2.tgtFits hi)) hi
    refine ⟨L', ?_, ?_, ?_, ?_, ?_, ?_⟩
    · rw [vetEach, Vet.andThen_ok]
      refine ⟨_, ?_, h0⟩
      unfold transferEdge
      rw [t1, t2]
      exact hx
    · intro l hl
      rcases h1 l hl with hl | ⟨a, ha, hl⟩
      · rcases List.mem_append.1 hl with hl | hl
        · exact .inl ((hmem l).1 hl).1
        · rw [List.mem_singleton.1 hl]
          exact .inr ⟨e, List.mem_cons_self, hm⟩
      · exact .inr ⟨a, List.mem_cons_of_mem _ ha, hl⟩
    · intro l hl hn
      refine h2 l (List.mem_append_left _ ((hmem l).2 ⟨hl, fun hs => hn hs e List.mem_cons_self⟩)) fun hs a ha =>
        hn hs a (List.mem_cons_of_mem _ ha)
    · intro hs a ha l hl hi
      rcases List.mem_cons.1 ha with rfl | ha
      · rcases h1 l hl with hl | ⟨b, hb, hl⟩
        · rcases List.mem_append.1 hl with hl | hl
          · exact absurd hi (((hmem l).1 hl).2 hs)
          · rw [List.mem_singleton.1 hl]
            exact hm
        · exact absurd (makes_into (hc b (List.mem_cons_of_mem _ hb)).2.2.tgtFits hl (into_data t3.tgtFits hi))
            (apart hs b hb _ _ hi)
      · exact h3 hs a ha l hl hi
    · intro a ha
      rcases List.mem_cons.1 ha with rfl | ha
      · exact ⟨l0, l0in, hm⟩
      · exact h4 a ha
    · intro n port hd hn
      rw [h5 n port hd (fun a ha => hn a (List.mem_cons_of_mem _ ha)), keep n port hd (hn e List.mem_cons_self)]

end Verif.Patch
