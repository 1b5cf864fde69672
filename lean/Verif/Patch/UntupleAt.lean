import Verif.Patch.UntupleMeans
import Verif.Patch.SiblingUse

/-!
# A tuple that is packed and unpacked

The nodes that `UntuplePass` replaces, and what they do.
-/
namespace Verif.Patch

open Verif.Graph Verif.Ops Verif.Passes Verif.Validate Verif.Dataflow Relation

variable {Meta W E : Type} {C : Validate.Context} {h : Hugr Ops.Op Meta} {p n k : Nat} {t : Types.Ty} {us : List Nat}
  {other : Bool} {s : Subgraph}

/-- In the region `p`, the node `n` makes a tuple of `k` values that the nodes `us` unpack; `s` is the subgraph of these nodes.
`other` says whether the tuple is also used otherwise. -/
structure PackAt (h : Hugr Ops.Op Meta) (p n k : Nat) (t : Types.Ty) (us : List Nat) (other : Bool) (s : Subgraph) : Prop where
  region : (body (h.ops p)).isSome = true
  nodes : ∀ m, m ∈ s.nodes ↔ m = n ∨ m ∈ us
  nodup : s.nodes.Nodup
  inputs : s.inputs = (List.range k).map fun q => [(n, q)]
  outputs_nodup : s.outputs.Nodup
  outputs : ∀ w ∈ s.outputs, (w.1 ∈ us ∧ w.2 < k) ∨ (w = (n, 0) ∧ other = true)
  parent : ∀ m ∈ s.nodes, h.hier.parent m = some p
  pack : ∃ a sg, h.ops n = .extensionOp "prelude" "MakeTuple" a sg ∧ sg.input.length = k ∧ sg.output = [t]
  unpack : ∀ u ∈ us, ∃ a sg, h.ops u = .extensionOp "prelude" "UnpackTuple" a sg ∧ sg.output.length = k ∧ sg.input = [t]
  fed : ∀ l ∈ h.links, l.dst ∈ us → l.src ∈ s.nodes ∧ (l.dstPort = 0 → l.src = n ∧ l.srcPort = 0)
  feeds : ∀ u ∈ us, ⟨n, 0, u, 0⟩ ∈ h.links
  enter : ∀ l ∈ h.links, l.dst = n → l.src ∉ s.nodes → l.dstPort < k
  leave : ∀ l ∈ h.links, l.src ∈ s.nodes → l.dst ∉ s.nodes → (l.src, l.srcPort) ∈ s.outputs ∧ h.hier.parent l.dst = some p
  shared : other = true → us ≠ [] → t.copyable = true

namespace PackAt

theorem isPack (z : PackAt h p n k t us other s) : n ∈ s.nodes := (z.nodes n).2 (.inl rfl)

theorem isUnpack (z : PackAt h p n k t us other s) {u : Nat} (hu : u ∈ us) : u ∈ s.nodes := (z.nodes u).2 (.inr hu)

theorem unpack_ne (z : PackAt h p n k t us other s) {u : Nat} (hu : u ∈ us) : u ≠ n := by
  rintro rfl
  obtain ⟨a, sg, h1, _⟩ := z.pack
  obtain ⟨a', sg', h2, _⟩ := z.unpack _ hu
  rw [h1] at h2; simp at h2

theorem leafOp (z : PackAt h p n k t us other s) {m : Nat} (hm : m ∈ s.nodes) : ∃ e nm a sg, h.ops m = .extensionOp e nm a sg := by
  rcases (z.nodes m).1 hm with rfl | hu
  · obtain ⟨a, sg, h1, _⟩ := z.pack
    exact ⟨_, _, a, sg, h1⟩
  · obtain ⟨a, sg, h1, _⟩ := z.unpack _ hu
    exact ⟨_, _, a, sg, h1⟩

theorem edge (z : PackAt h p n k t us other s) (ht : IsTree h) {l : Link} (hl : l ∈ h.links) (h1 : h.hier.parent l.src = some p)
    (h2 : h.hier.parent l.dst = some p) : RegionEdge h p l.src l.dst :=
  ⟨(ht.child_iff _ _).2 h1, (ht.child_iff _ _).2 h2, l, hl, rfl, rfl⟩

theorem no_cycle (z : PackAt h p n k t us other s) (ht : IsTree h) (hv : Valid C h) (m : Nat) :
    ¬ TransGen (RegionEdge h p) m m :=
  hv.acyclic p (ht.parent_live _ _ (z.parent n z.isPack)).2 z.region m

/-- From the node that packs, a way leads to each of the nodes. -/
theorem from_pack (z : PackAt h p n k t us other s) (ht : IsTree h) {m : Nat} (hm : m ∈ s.nodes) :
    ReflTransGen (RegionEdge h p) n m := by
  rcases (z.nodes m).1 hm with rfl | hu
  · exact .refl
  · exact .single (z.edge ht (z.feeds m hu) (z.parent _ z.isPack) (z.parent _ hm))

theorem not_back (z : PackAt h p n k t us other s) (ht : IsTree h) (hv : Valid C h) {l : Link} (hl : l ∈ h.links)
    (hd : l.dst = n) : l.src ∉ s.nodes := by
  intro hs
  refine z.no_cycle ht hv n (TransGen.tail' (z.from_pack ht hs) ?_)
  have := z.edge ht hl (z.parent _ hs) (by rw [hd]; exact z.parent _ z.isPack)
  rwa [hd] at this

theorem to_pack (z : PackAt h p n k t us other s) {b c : Nat} (hb : b ∉ s.nodes) (hc : c ∈ s.nodes)
    (hbc : TransGen (RegionEdge h p) b c) : TransGen (RegionEdge h p) b n := by
  induction hbc with
  | @single c e =>
    obtain ⟨e1, e2, l, hl, rfl, rfl⟩ := e
    rcases (z.nodes _).1 hc with h1 | h1
    · rw [← h1]; exact .single ⟨e1, e2, l, hl, rfl, rfl⟩
    · exact absurd (z.fed l hl h1).1 hb
  | @tail d c hbd e ih =>
    obtain ⟨e1, e2, l, hl, rfl, rfl⟩ := e
    rcases (z.nodes _).1 hc with h1 | h1
    · rw [← h1]; exact hbd.tail ⟨e1, e2, l, hl, rfl, rfl⟩
    · exact ih (z.fed l hl h1).1

theorem convex (z : PackAt h p n k t us other s) (ht : IsTree h) (hv : Valid C h) : Convex h p s.nodes := by
  intro a b c ha hb hc hab hbc
  exact z.no_cycle ht hv n (TransGen.trans_right (z.from_pack ht ha) hab |>.trans (z.to_pack hb hc hbc))

theorem isLeaf (z : PackAt h p n k t us other s) (ht : IsTree h) (hv : Valid C h) {m : Nat} (hm : m ∈ s.nodes) :
    h.children m = [] := by
  obtain ⟨e, nm, a, sg, h1⟩ := z.leafOp hm
  have := hv.children m (ht.parent_live _ _ (z.parent m hm)).1
  unfold ChildrenOk at this
  rw [h1] at this
  exact this

theorem in_kind {e nm : String} {a : List Types.Term} {sg : Types.Signature} {q : Nat} :
    ((Ops.Op.extensionOp e nm a sg).ports .incoming)[q]? = (sg.input.map Kind.value ++ [.stateOrder])[q]? := rfl

theorem out_kind {e nm : String} {a : List Types.Term} {sg : Types.Signature} {q : Nat} :
    ((Ops.Op.extensionOp e nm a sg).ports .outgoing)[q]? = (sg.output.map Kind.value ++ [.stateOrder])[q]? := rfl

theorem removable (z : PackAt h p n k t us other s) (ht : IsTree h) (hv : Valid C h) : Removable h p s := by
  refine ⟨z.region, List.ne_nil_of_mem z.isPack, z.nodup, z.parent, fun m hm => z.isLeaf ht hv hm, ?_, ?_⟩
  · intro part hpart np hnp
    rw [z.inputs] at hpart
    obtain ⟨q, _, rfl⟩ := List.mem_map.1 hpart
    rw [List.mem_singleton.1 hnp]; exact z.isPack
  · intro np hnp
    rcases z.outputs np hnp with h1 | h1
    · exact z.isUnpack h1.1
    · rw [h1.1]; exact z.isPack

theorem separable (z : PackAt h p n k t us other s) (ht : IsTree h) (hv : Valid C h) : Separable h p s := by
  refine ⟨?_, z.convex ht hv, ?_, z.outputs_nodup, ?_, ?_, ?_, fun l hl h1 h2 _ => z.leave l hl h1 h2, ?_⟩
  · intro m hm hio
    obtain ⟨e, nm, a, sg, h1⟩ := z.leafOp hm
    rcases hio with ⟨ts, h2⟩ | ⟨ts, h2⟩ <;> rw [h1] at h2 <;> cases h2
  · rw [z.inputs]
    have : ((List.range k).map fun q => [(n, q)]).flatten = (List.range k).map fun q => (n, q) := by
      induction List.range k with
      | nil => rfl
      | cons x xs ih => simp [ih]
    rw [this]
    exact List.nodup_range.map fun a b e => (Prod.mk.inj e).2
  · intro l hl h1 h2 t' _
    rcases (z.nodes _).1 h2 with h3 | h3
    · refine ⟨[(n, l.dstPort)], ?_, by rw [h3]; simp⟩
      rw [z.inputs]
      exact List.mem_map.2 ⟨_, List.mem_range.2 (z.enter l hl h3 h1), rfl⟩
    · exact absurd (z.fed l hl h3).1 h1
  · intro part hpart l hl hm
    rw [z.inputs] at hpart
    obtain ⟨q, _, rfl⟩ := List.mem_map.1 hpart
    exact z.not_back ht hv hl (Prod.mk.inj (List.mem_singleton.1 hm)).1
  · intro part hpart l hl l' hl' hm hm'
    rw [z.inputs] at hpart
    obtain ⟨q, hq, rfl⟩ := List.mem_map.1 hpart
    obtain ⟨a, sg, h1, h2, _⟩ := z.pack
    have hk : ((h.ops n).ports .incoming)[q]? = some (.value (sg.input[q]'(by rw [h2]; exact List.mem_range.1 hq))) := by
      rw [h1, in_kind, List.getElem?_append_left (by simpa [h2] using hq), List.getElem?_map,
        List.getElem?_eq_getElem (by rw [h2]; exact List.mem_range.1 hq)]
      rfl
    obtain ⟨x, y, _, he⟩ := one_link hv (ht.parent_live _ _ (z.parent n z.isPack)).1 hk
    obtain ⟨e1, e2⟩ := Prod.mk.inj (List.mem_singleton.1 hm)
    obtain ⟨e3, e4⟩ := Prod.mk.inj (List.mem_singleton.1 hm')
    have q1 := (he l.src l.srcPort).1 (by rw [← e1, ← e2]; exact hl)
    have q2 := (he l'.src l'.srcPort).1 (by rw [← e3, ← e4]; exact hl')
    exact ⟨q1.1.trans q2.1.symm, q1.2.trans q2.2.symm⟩
  · intro l hl hm t' h1 h2 hd
    rcases (z.nodes _).1 hd with h3 | h3
    · refine z.not_back ht hv hl h3 ?_
      rcases z.outputs _ hm with h4 | h4
      · exact z.isUnpack h4.1
      · rw [(Prod.mk.inj h4.1).1]; exact z.isPack
    · obtain ⟨kind, k1, k2, _⟩ := hv.kinds l hl
      rw [h1] at k1; cases k1
      obtain ⟨a, sg, h4, _, h5⟩ := z.unpack _ h3
      rw [h4, in_kind, h5] at k2
      have hport : l.dstPort = 0 := by
        match hp : l.dstPort with
        | 0 => rfl
        | 1 => rw [hp] at k2; cases k2
        | (x + 2) => rw [hp] at k2; cases k2
      obtain ⟨e1, e2⟩ := (z.fed l hl h3).2 hport
      rcases z.outputs _ hm with h6 | h6
      · exact z.unpack_ne h6.1 e1
      · have := z.shared h6.2 (List.ne_nil_of_mem h3)
        rw [hport] at k2
        simp at k2
        rw [k2, h2] at this; cases this

/-- The value on an output of the subgraph. -/
def outVal (n : Nat) (ins : List (Val W)) (w : Nat × Nat) : Option (Val W) := if w.1 = n then some (.sum 0 ins) else ins[w.2]?

theorem bodiless_ext {m : Nat} {e nm : String} {a : List Types.Term} {sg : Types.Signature}
    (h1 : h.ops m = .extensionOp e nm a sg) : (bodiless h).ops m = .extensionOp e nm a sg := by
  simp [bodiless, h1]

/-- The nodes give, on each output, the tuple or one of the values in it. -/
theorem means_iff (z : PackAt h p n k t us other s) (ht : IsTree h) (hv : Valid C h) (S : Sem W E) (R : Answers W)
    (ins outs : List (Val W)) : SubMeans h S s R ins outs ↔ ins.length = k ∧ outs.length = s.outputs.length ∧
      ∀ (j : Nat) w, s.outputs[j]? = some w → outs[j]? = outVal n ins w := by
  obtain ⟨a, sg, p1, p2, p3⟩ := z.pack
  have hil : s.inputs.length = k := by rw [z.inputs]; simp
  unfold SubMeans
  rw [hil]
  have hat : ∀ (j : Nat) part, s.inputs[j]? = some part → part = [(n, j)] := by
    intro j part hj
    rw [z.inputs, List.getElem?_map] at hj
    cases hr : (List.range k)[j]? with
    | none => rw [hr] at hj; cases hj
    | some x =>
      rw [hr] at hj
      rw [List.getElem?_range (by have := (List.getElem?_eq_some_iff.1 hr).1; simpa using this)] at hr
      cases hr
      exact (Option.some.inj hj).symm
  constructor
  · rintro ⟨h1, h2, σ, args, res, h3, h4⟩
    obtain ⟨n1, n2, n3, n4, n5⟩ := h3 n z.isPack
    have hargs : args n = ins := by
      have hlen : (args n).length = ins.length := by rw [n1, p1, IsBody.numIns_ext, p2, h1]
      refine List.ext_getElem? fun q => ?_
      by_cases hlt : q < (args n).length
      · rcases n2 q _ (List.getElem?_eq_getElem hlt) with ⟨j, part, m1, m2, m3⟩ | ⟨l, m1, m2, m3, _⟩
        · have := hat j part m1
          subst this
          have := (Prod.mk.inj (List.mem_singleton.1 m2)).2
          subst this
          rw [m3, List.getElem?_eq_getElem hlt]
        · exact absurd m2 (z.not_back ht hv m1 m3)
      · rw [List.getElem?_eq_none (by omega), List.getElem?_eq_none (by omega)]
    have hres : res n = [.sum 0 ins] := by
      have := (IsBody.runs_makeTuple (bodiless_ext p1)).1 n5
      rw [this, hargs]
    refine ⟨h1, h2, fun j w hw => ?_⟩
    rw [← h4 j w.1 w.2 hw]
    unfold outVal
    rcases z.outputs w (List.mem_of_getElem? hw) with ⟨o1, o2⟩ | ⟨o1, o2⟩
    · rw [if_neg (z.unpack_ne o1)]
      obtain ⟨u1, u2, u3, u4, u5⟩ := h3 w.1 (z.isUnpack o1)
      obtain ⟨a', sg', q1, q2, q3⟩ := z.unpack _ o1
      obtain ⟨r1, r2⟩ := (IsBody.runs_unpackTuple (bodiless_ext q1)).1 u5
      rw [r1] at u2
      rcases u2 0 _ rfl with ⟨j', part, m1, m2, m3⟩ | ⟨l, m1, m2, m3, m4, m5⟩
      · have := hat j' part m1
        subst this
        exact absurd (Prod.mk.inj (List.mem_singleton.1 m2)).1 (z.unpack_ne o1)
      · obtain ⟨e1, e2⟩ := (z.fed l m1 (by rw [m3]; exact o1)).2 m4
        rw [e1, e2, n3, hres] at m5
        have := Option.some.inj m5
        injection this with _ this
        rw [u3, this]; rfl
    · rw [o1, if_pos rfl]
      simp only []
      rw [n3, hres]; rfl
  · rintro ⟨h1, h2, h3⟩
    classical
    refine ⟨h1, h2, fun m => if m = n then outWires [.sum 0 ins] else outWires ins, fun m => if m = n then ins else [.sum 0 ins],
      fun m => if m = n then [.sum 0 ins] else ins, fun m hm => ?_, fun j m q hw => ?_⟩
    · by_cases hmn : m = n
      · subst hmn
        simp only [if_pos]
        rw [p1, IsBody.numIns_ext, IsBody.numOuts_ext, p2, p3]
        refine ⟨h1, fun q v hq => .inl ⟨q, [(m, q)], ?_, by simp, hq⟩, trivial, rfl, (IsBody.runs_makeTuple (bodiless_ext p1)).2 rfl⟩
        have hlt : q < k := by rw [← h1]; exact (List.getElem?_eq_some_iff.1 hq).1
        rw [z.inputs, List.getElem?_map, List.getElem?_range hlt]; rfl
      · simp only [if_neg hmn]
        have hu : m ∈ us := ((z.nodes m).1 hm).resolve_left hmn
        obtain ⟨a', sg', q1, q2, q3⟩ := z.unpack _ hu
        rw [q1, IsBody.numIns_ext, IsBody.numOuts_ext, q2, q3]
        refine ⟨rfl, fun q v hq => .inr ⟨⟨n, 0, m, 0⟩, z.feeds m hu, z.isPack, rfl, ?_, ?_⟩, trivial, h1,
          (IsBody.runs_unpackTuple (bodiless_ext q1)).2 ⟨rfl, by rw [q2, h1]⟩⟩
        · have := (List.getElem?_eq_some_iff.1 hq).1
          simp at this
          exact this.symm
        · have := (List.getElem?_eq_some_iff.1 hq).1
          simp at this
          subst this
          simpa [outWires] using hq
    · rw [h3 j _ hw]
      unfold outVal
      rcases z.outputs _ (List.mem_of_getElem? hw) with ⟨o1, o2⟩ | ⟨o1, o2⟩
      · simp only [if_neg (z.unpack_ne o1)]; rfl
      · obtain ⟨e1, e2⟩ := Prod.mk.inj o1
        subst e1; subst e2
        simp [outWires]

/-- The wire of the replacement for an output. -/
def asWire (n : Nat) (w : Nat × Nat) : Nat × Nat := if w.1 = n then (7, 0) else (5, w.2)

theorem asWire_val (n : Nat) (ins : List (Val W)) (w : Nat × Nat) : IsBody.wireVal ins (asWire n w) = outVal n ins w := by
  unfold outVal IsBody.wireVal asWire
  by_cases hn : w.1 = n
  · rw [if_pos hn, if_pos hn, if_neg (by decide)]
  · rw [if_neg hn, if_neg hn, if_pos rfl]

/-- The nodes do the same as what replaces them. -/
theorem same (z : PackAt h p n k t us other s) (ht : IsTree h) (hv : Valid C h) {r : Hugr Ops.Op Meta} {sig : Types.Signature}
    {types : List Types.Ty} {packs : Bool} (zr : IsBody r sig types packs (s.outputs.map (asWire n)))
    (hg : GoodWires sig packs (s.outputs.map (asWire n)))
    (hl : s.outputs.length = sig.output.length) (hi : sig.input.length = k) (hty : types.length = k) (S Sr : Sem W E) (R : Answers W)
    (ins outs : List (Val W)) : SubMeans h S s R ins outs ↔ BodyMeans r Sr R ins outs := by
  rw [z.means_iff ht hv, zr.means_iff hg (by simpa using hl) (by rw [hty, hi]), hi, List.length_map]
  refine and_congr_right fun _ => and_congr_right fun _ => ?_
  constructor
  · intro h1 j w hw
    rw [List.getElem?_map] at hw
    cases ho : s.outputs[j]? with
    | none => rw [ho] at hw; cases hw
    | some w' =>
      rw [ho] at hw
      rw [h1 j w' ho, ← Option.some.inj hw, asWire_val]
  · intro h1 j w hw
    have := h1 j _ (by rw [List.getElem?_map, hw]; rfl)
    rw [this, asWire_val]

end PackAt

end Verif.Patch
