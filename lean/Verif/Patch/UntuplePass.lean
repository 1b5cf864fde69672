import Verif.Patch.UntupleFind

/-!
# All rewrites of `UntuplePass`
-/
namespace Verif.Patch

open Verif.Graph Verif.Ops Verif.Passes Verif.Validate Verif.Dataflow Relation

variable {Meta : Type} {C : Validate.Context} {h r : Hugr Ops.Op Meta} {p n : Nat} {s : Subgraph}
  {alloc : Hugr Ops.Op Meta → Nat → List Nat}

/-- New nodes get unused indices. -/
def GivesUnused (alloc : Hugr Ops.Op Meta → Nat → List Nat) : Prop :=
  ∀ h k, IsTree h → (alloc h k).length = k ∧ Allocated h (alloc h k)

/-- The rewrites come from nodes, each once; the other nodes are skipped. -/
theorem rewritesOf_spec {debug : Bool} : ∀ {ns : List Nat} {rws : List (Subgraph × Hugr Ops.Op Meta)},
    rewritesOf C debug h ns = some rws → ∃ items : List (Nat × Subgraph × Hugr Ops.Op Meta), items.map Prod.snd = rws ∧
      (items.map Prod.fst).Sublist ns ∧ (∀ it ∈ items, makeRewrite C debug h it.1 = .rewrite it.2.1 it.2.2) ∧
      ∀ n ∈ ns, n ∈ items.map Prod.fst ∨ makeRewrite C debug h n = .skip
  | [], rws, e => by
    cases e
    exact ⟨[], rfl, by simp, by simp, by simp⟩
  | n :: ns, rws, e => by
    simp only [rewritesOf] at e
    cases hm : makeRewrite C debug h n with
    | panic => rw [hm] at e; cases e
    | skip =>
      rw [hm] at e
      obtain ⟨items, h1, h2, h3, h4⟩ := rewritesOf_spec e
      refine ⟨items, h1, h2.cons _, h3, fun m hmem => ?_⟩
      rcases List.mem_cons.1 hmem with rfl | hmem
      · exact .inr hm
      · exact h4 m hmem
    | rewrite s r =>
      rw [hm] at e
      simp only [] at e
      cases hr : rewritesOf C debug h ns with
      | none => rw [hr] at e; cases e
      | some rest =>
        rw [hr] at e
        cases e
        obtain ⟨items, h1, h2, h3, h4⟩ := rewritesOf_spec hr
        refine ⟨(n, s, r) :: items, by simp [h1], h2.cons_cons _, fun it hit => ?_, fun m hmem => ?_⟩
        · rcases List.mem_cons.1 hit with rfl | hit
          · exact hm
          · exact h3 it hit
        · rcases List.mem_cons.1 hmem with rfl | hmem
          · exact .inl (by simp)
          · rcases h4 m hmem with h5 | h5
            · exact .inl (by rw [List.map_cons]; exact .tail _ h5)
            · exact .inr h5

theorem isTupleOp_make (types : List Types.Ty) : isTupleOp "MakeTuple" (makeTupleOp types) = true := by
  simp [isTupleOp, makeTupleOp]

/-- Applying rewrites of different nodes. -/
theorem applyRewrites_spec (hall : GivesUnused alloc) : ∀ {items : List (Nat × Subgraph × Hugr Ops.Op Meta)} {h : Hugr Ops.Op Meta},
    IsTree h → Valid C h → Forgets opsInfo.toOpInfo h → (∀ it ∈ items, Rewrites C h p it.1 it.2.1 it.2.2) →
    items.Pairwise (fun a b => ∀ m ∈ b.2.1.nodes, m ∉ a.2.1.nodes) →
    ∃ g, applyRewrites alloc h (items.map Prod.snd) = .ok g ∧ IsTree g ∧ Valid C g ∧ Forgets opsInfo.toOpInfo g ∧
      (∀ (W E : Type) (S : Sem W E) k args outs, Returns g S k args outs ↔ Returns h S k args outs) ∧
      (∀ m, h.live m = true → (∀ it ∈ items, m ∉ it.2.1.nodes) →
        g.live m = true ∧ g.ops m = h.ops m ∧ g.hier.parent m = h.hier.parent m) ∧
      ∀ m, g.live m = true → isTupleOp "MakeTuple" (g.ops m) = false →
        h.live m = true ∧ g.ops m = h.ops m ∧ g.hier.parent m = h.hier.parent m ∧ ∀ it ∈ items, m ∉ it.2.1.nodes
  | [], h, ht, hv, hf, _, _ => ⟨h, rfl, ht, hv, hf, fun _ _ _ _ _ _ => Iff.rfl, fun _ h1 _ => ⟨h1, rfl, rfl⟩, fun _ h1 _ => ⟨h1, rfl, rfl, by simp⟩⟩
  | (n, s, r) :: items, h, ht, hv, hf, hrw, hd => by
    have z := hrw _ (List.mem_cons_self ..)
    simp only [] at z
    obtain ⟨a1, a2⟩ := hall h (r.descendants r.entrypoint).length ht
    obtain ⟨g1, map, f, e1, e2, e3, e4, e5, e6⟩ := z.apply ht hv hf a1 a2
    obtain ⟨d1, d2⟩ := List.pairwise_cons.1 hd
    obtain ⟨g, q1, q2, q3, q4, q5, q6, q7⟩ := applyRewrites_spec hall e3 e4 e5
      (fun it hit => (hrw it (.tail _ hit)).keep ht hv z e2 (d1 it hit)) d2
    refine ⟨g, ?_, q2, q3, q4, fun W E S k args outs => (q5 W E S k args outs).trans (e6 W E S k args outs), ?_, ?_⟩
    · simp only [List.map_cons, applyRewrites]
      rw [e1]
      exact q1
    · intro m hm hne
      have hne1 : m ∉ s.nodes := hne _ (List.mem_cons_self ..)
      obtain ⟨x1, _, _, _, x5⟩ := e2.host m hm hne1
      have hl : g1.live m = true := (e2.live m).2 (.inl ⟨hm, hne1⟩)
      obtain ⟨y1, y2, y3⟩ := q6 m hl fun it hit => hne it (.tail _ hit)
      exact ⟨y1, y2.trans x1, y3.trans x5⟩
    · intro m hm hop
      obtain ⟨y1, y2, y3, y4⟩ := q7 m hm hop
      rcases (e2.live m).1 y1 with ⟨x1, x2⟩ | ⟨x, x1, rfl⟩
      · obtain ⟨w1, _, _, _, w5⟩ := e2.host m x1 x2
        refine ⟨x1, y2.trans w1, y3.trans w5, fun it hit => ?_⟩
        rcases List.mem_cons.1 hit with rfl | hit
        · exact x2
        · exact y4 it hit
      · exfalso
        obtain ⟨k, t, us, other, sig, types, packs, _, z2, _⟩ := z
        obtain ⟨rfl, hp⟩ := z2.fresh_iff.1 x1
        rw [y2, (e2.node 7 x1).1, z2.pack hp, isTupleOp_make] at hop
        cases hop

/-- The node `m` unpacks a tuple that is made in the same region `p`. -/
def Unpacks (h : Hugr Ops.Op Meta) (p m : Nat) : Prop :=
  isTupleOp "UnpackTuple" (h.ops m) = true ∧ h.hier.parent m = some p ∧
  ∃ n q, isTupleOp "MakeTuple" (h.ops n) = true ∧ h.hier.parent n = some p ∧ (⟨n, 0, m, q⟩ : Link) ∈ h.links

/-- What `UntuplePass` makes of a Hugr: it removes all nodes that unpack a tuple made in the region. What it adds are nodes that
make tuples; everything else stays. -/
structure Untuples (h : Hugr Ops.Op Meta) (p : Nat) (g : Hugr Ops.Op Meta) : Prop where
  kept : ∀ m, h.live m = true → isTupleOp "MakeTuple" (h.ops m) = false → ¬ Unpacks h p m →
    g.live m = true ∧ g.ops m = h.ops m ∧ g.hier.parent m = h.hier.parent m
  only : ∀ m, g.live m = true → isTupleOp "MakeTuple" (g.ops m) = false →
    h.live m = true ∧ g.ops m = h.ops m ∧ g.hier.parent m = h.hier.parent m ∧ ¬ Unpacks h p m

/-- If `find_rewrites` does not panic, then the rewrites can be applied. -/
theorem findRewrites_apply (ht : IsTree h) (hv : Valid C h) (hf : Forgets opsInfo.toOpInfo h) (hto : TupleOps h)
    (hu : UsedInside h p) (hall : GivesUnused alloc) {debug : Bool} {rws : List (Subgraph × Hugr Ops.Op Meta)}
    (hfind : findRewrites C debug h p = some rws) :
    ∃ g, applyRewrites alloc h rws = .ok g ∧ IsTree g ∧ Valid C g ∧ Untuples h p g ∧
      ∀ (W E : Type) (S : Sem W E) k args outs, Returns g S k args outs ↔ Returns h S k args outs := by
  obtain ⟨items, h1, h2, h3, h4⟩ := rewritesOf_spec hfind
  have hch : ∀ m, m ∈ h.children p ↔ h.hier.parent m = some p := fun m => ht.child_iff _ _
  have hpar : ∀ it ∈ items, h.hier.parent it.1 = some p := fun it hit => (hch _).1 (h2.subset (List.mem_map_of_mem hit))
  have hrw : ∀ it ∈ items, Rewrites C h p it.1 it.2.1 it.2.2 ∧ ∀ m, m ∈ it.2.1.nodes ↔ m = it.1 ∨ m ∈ unpackNodes h it.1 :=
    fun it hit => makeRewrite_rewrites ht hv hto hu (hpar it hit) (h3 it hit)
  have hmake : ∀ it ∈ items, isTupleOp "MakeTuple" (h.ops it.1) = true := by
    intro it hit
    have := h3 it hit
    unfold makeRewrite at this
    by_contra hc
    rw [if_neg hc] at this; cases this
  have hnot : ∀ m, isTupleOp "MakeTuple" (h.ops m) = true → isTupleOp "UnpackTuple" (h.ops m) = true → False := by
    intro m hm1 hm2
    obtain ⟨a, sg, e1⟩ := isTupleOp_ext hm1
    obtain ⟨a', sg', e2⟩ := isTupleOp_ext hm2
    rw [e1] at e2; simp at e2
  have hunp : ∀ n m, m ∈ unpackNodes h n ↔ m ∈ tupleUses h n ∧ h.hier.parent m = h.hier.parent n ∧
      isTupleOp "UnpackTuple" (h.ops m) = true := by
    intro n m
    unfold unpackNodes
    rw [List.mem_filter, Bool.and_eq_true, decide_eq_true_eq, getParent_eq ht, getParent_eq ht]
  have hnd : (items.map Prod.fst).Nodup := h2.nodup (ht.child_once p)
  have hdis : items.Pairwise fun a b => ∀ m ∈ b.2.1.nodes, m ∉ a.2.1.nodes := by
    rw [List.nodup_iff_pairwise_ne, List.pairwise_map] at hnd
    refine hnd.imp_of_mem fun {a b} ha hb hne m hm hm' => ?_
    rcases ((hrw b hb).2 m).1 hm with e1 | e1
    · rcases ((hrw a ha).2 m).1 hm' with e2 | e2
      · exact hne (e2.symm.trans e1)
      · exact hnot m (e1 ▸ hmake b hb) ((hunp _ _).1 e2).2.2
    · rcases ((hrw a ha).2 m).1 hm' with e2 | e2
      · exact hnot m (e2 ▸ hmake a ha) ((hunp _ _).1 e1).2.2
      · obtain ⟨k, t, us, other, _, _, _, za, _⟩ := (hrw a ha).1
        obtain ⟨k', t', us', other', _, _, _, zb, _⟩ := (hrw b hb).1
        have hma : m ∈ us := by
          refine ((za.nodes m).1 hm').resolve_left fun e => ?_
          exact hnot m (e ▸ hmake a ha) ((hunp _ _).1 e2).2.2
        have hmb : m ∈ us' := by
          refine ((zb.nodes m).1 hm).resolve_left fun e => ?_
          exact hnot m (e ▸ hmake b hb) ((hunp _ _).1 e1).2.2
        exact hne ((zb.fed _ (za.feeds m hma) hmb).2 rfl).1
  obtain ⟨g, q1, q2, q3, _, q5, q6, q7⟩ := applyRewrites_spec (C := C) (p := p) hall ht hv hf (fun it hit => (hrw it hit).1) hdis
  rw [h1] at q1
  have hin : ∀ m, Unpacks h p m ↔ ∃ it ∈ items, m ∈ unpackNodes h it.1 := by
    intro m
    constructor
    · rintro ⟨u1, u2, n, q, u3, u4, u5⟩
      have hmem : m ∈ unpackNodes h n := (hunp n m).2 ⟨mem_tupleUses.2 ⟨q, u5⟩, by rw [u2, u4], u1⟩
      rcases h4 n ((hch n).2 u4) with h5 | h5
      · obtain ⟨it, hit, rfl⟩ := List.mem_map.1 h5
        exact ⟨it, hit, hmem⟩
      · exfalso
        unfold makeRewrite at h5
        rw [if_pos u3] at h5
        have : (unpackNodes h n).isEmpty = false := by
          cases hx : unpackNodes h n with
          | nil => rw [hx] at hmem; cases hmem
          | cons => rfl
        rw [this] at h5
        simp only [Bool.false_and, Bool.false_eq_true, if_false] at h5
        split at h5 <;> cases h5
    · rintro ⟨it, hit, hmem⟩
      obtain ⟨u1, u2, u3⟩ := (hunp _ _).1 hmem
      obtain ⟨q, hq⟩ := mem_tupleUses.1 u1
      exact ⟨u3, by rw [u2, hpar it hit], it.1, q, hmake it hit, hpar it hit, hq⟩
  refine ⟨g, q1, q2, q3, ⟨fun m hm hop hun => q6 m hm fun it hit hmem => ?_, fun m hm hop => ?_⟩, q5⟩
  · rcases ((hrw it hit).2 m).1 hmem with e | e
    · rw [e, hmake it hit] at hop; cases hop
    · exact hun ((hin m).2 ⟨it, hit, e⟩)
  · obtain ⟨y1, y2, y3, y4⟩ := q7 m hm hop
    refine ⟨y1, y2, y3, fun hun => ?_⟩
    obtain ⟨it, hit, e⟩ := (hin m).1 hun
    exact y4 it hit (((hrw it hit).2 m).2 (.inr e))

end Verif.Patch
