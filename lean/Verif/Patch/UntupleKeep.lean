import Verif.Patch.UntupleAt

/-!
# One rewrite of `UntuplePass` leaves the others possible
-/
namespace Verif.Patch

open Verif.Graph Verif.Ops Verif.Passes Verif.Validate Verif.Dataflow Relation

variable {Meta W E : Type} {C : Validate.Context} {h r g : Hugr Ops.Op Meta} {p : Nat} {s : Subgraph}

/-- A rewrite that `UntuplePass` makes for the node `n` of the region `p`, and that can still be applied. -/
def Rewrites (C : Validate.Context) (h : Hugr Ops.Op Meta) (p n : Nat) (s : Subgraph) (r : Hugr Ops.Op Meta) : Prop :=
  ∃ k t us other sig types packs, PackAt h p n k t us other s ∧ IsBody r sig types packs (s.outputs.map (PackAt.asWire n)) ∧
    GoodWires sig packs (s.outputs.map (PackAt.asWire n)) ∧ s.outputs.length = sig.output.length ∧ sig.input.length = k ∧
    types.length = k ∧ Valid C r ∧ tryNew s h r = .ok

theorem collect_congr {α β : Type} {f f' : α → Option (List β)} : ∀ {l : List α}, (∀ x ∈ l, f x = f' x) → collect f l = collect f' l
  | [], _ => rfl
  | x :: xs, hf => by
    simp only [collect]
    rw [hf x (by simp), collect_congr fun y hy => hf y (by simp [hy])]

/-- Whether a replacement is accepted depends only on the operations of the subgraph. -/
theorem tryNew_congr (hi : ∀ part ∈ s.inputs, ∀ np ∈ part, g.ops np.1 = h.ops np.1)
    (ho : ∀ np ∈ s.outputs, g.ops np.1 = h.ops np.1) : tryNew s g r = tryNew s h r := by
  have hs : s.signature g = s.signature h := by
    have e1 : collect (fun part => (partType g part).map fun t => [t]) s.inputs =
        collect (fun part => (partType h part).map fun t => [t]) s.inputs := by
      refine collect_congr fun part hpart => ?_
      cases part with
      | nil => rfl
      | cons np rest =>
        simp only [partType]
        unfold portType
        rw [hi _ hpart np (by simp)]
    have e2 : collect (fun np : Nat × Nat => (portType g np.1 .outgoing np.2).map fun t => [t]) s.outputs =
        collect (fun np => (portType h np.1 .outgoing np.2).map fun t => [t]) s.outputs := by
      refine collect_congr fun np hnp => ?_
      unfold portType
      rw [ho np hnp]
    unfold Subgraph.signature
    rw [e1, e2]
  unfold tryNew
  rw [hs]

/-- A rewrite keeps another tuple as it is. -/
theorem PackAt.keep {n n' k k' : Nat} {t t' : Types.Ty} {us us' : List Nat} {other other' : Bool} {s' : Subgraph} {sig : Types.Signature}
    {types : List Types.Ty} {packs : Bool} {ws : List (Nat × Nat)} {f : Nat → Nat} (ht : IsTree h) (hv : Valid C h)
    (z : PackAt h p n k t us other s) (z' : PackAt h p n' k' t' us' other' s') (zr : IsBody r sig types packs ws)
    (hg : GoodWires sig packs ws) (hr : Replaced h r p 5 6 s' f g) (hd : ∀ m ∈ s.nodes, m ∉ s'.nodes) :
    PackAt g p n k t us other s ∧ ∀ m ∈ s.nodes, g.ops m = h.ops m := by
  have live : ∀ m ∈ s.nodes, h.live m = true := fun m hm => (ht.parent_live _ _ (z.parent m hm)).1
  have hops : ∀ m ∈ s.nodes, g.ops m = h.ops m := fun m hm => (hr.host m (live m hm) (hd m hm)).1
  have hp : p ∉ s'.nodes := by
    intro hm
    have := (ht.child_iff _ _).2 (z.parent n z.isPack)
    change n ∈ h.children p at this
    rw [z'.isLeaf ht hv hm] at this; cases this
  have hpl : h.live p = true := (ht.parent_live _ _ (z.parent n z.isPack)).2
  have hout : ∀ (j m q : Nat), s'.outputs[j]? = some (m, q) → m ∈ s'.nodes := fun j m q hj =>
    (z'.removable ht hv).outputs _ (List.mem_of_getElem? hj)
  have hin : ∀ (j m q : Nat) rest, s'.inputs[j]? = some ((m, q) :: rest) → m ∈ s'.nodes := fun j m q rest hj =>
    (z'.removable ht hv).inputs _ (List.mem_of_getElem? hj) (m, q) (by simp)
  have from5 : ∀ {q x xp : Nat}, (⟨5, q, x, xp⟩ : Link) ∈ r.links → x ≠ 6 → Fresh r 5 6 x ∧ r.hier.parent x = some r.entrypoint := by
    intro q x xp hl hx
    rcases zr.link_cases hg hl with ⟨h1, _⟩ | ⟨h1, _, _, h2⟩ | ⟨_, _, _, _, h2⟩ | ⟨h1, _, _, h2⟩
    · simp at h1
    · cases h2
      exact ⟨zr.fresh_iff.2 ⟨rfl, h1⟩, by rw [zr.entry]; exact zr.child_iff.2 (.inr (.inr ⟨rfl, h1⟩))⟩
    · cases h2; exact absurd rfl hx
    · cases h2
  have to6 : ∀ {q x xp : Nat}, (⟨x, xp, 6, q⟩ : Link) ∈ r.links → x ≠ 5 → Fresh r 5 6 x := by
    intro q x xp hl hx
    rcases zr.link_cases hg hl with ⟨_, h1⟩ | ⟨h1, _, _, h2⟩ | ⟨_, _, _, _, h2⟩ | ⟨h1, _, _, h2⟩
    · simp at h1
    · cases h2
    · cases h2; exact absurd rfl hx
    · cases h2; exact zr.fresh_iff.2 ⟨rfl, h1⟩
  have notnew : ∀ {x}, Fresh r 5 6 x → f x ∉ s.nodes := by
    intro x hx hm
    have := hr.fresh x hx
    rw [live _ hm] at this; cases this
  refine ⟨⟨?_, z.nodes, z.nodup, z.inputs, z.outputs_nodup, z.outputs, fun m hm => ?_, ?_, fun u hu => ?_, ?_, ?_, ?_, ?_, z.shared⟩, hops⟩
  · rw [(hr.host p hpl hp).1]; exact z.region
  · rw [(hr.host m (live m hm) (hd m hm)).2.2.2.2]; exact z.parent m hm
  · rw [hops n z.isPack]; exact z.pack
  · rw [hops u (z.isUnpack hu)]; exact z.unpack u hu
  · intro l hl hu
    rcases (hr.links l).1 hl with ⟨h1, _⟩ | h1
    · exact z.fed l h1 hu
    · cases h1 with
      | inner _ _ h3 => exact absurd (z.isUnpack hu) (notnew h3)
      | incoming _ h2 h3 => exact absurd (z.isUnpack hu) (notnew (from5 h2 h3).1)
      | outgoing _ _ h4 =>
        obtain ⟨m, q, h5, h6, h7⟩ := h4
        exact absurd (hout _ _ _ h5) (hd _ (z.fed _ h6 hu).1)
      | through _ _ h4 =>
        obtain ⟨m, q, h5, h6, h7⟩ := h4
        exact absurd (hout _ _ _ h5) (hd _ (z.fed _ h6 hu).1)
  · intro u hu
    exact (hr.links _).2 (.inl ⟨z.feeds u hu, hd _ z.isPack, hd _ (z.isUnpack hu)⟩)
  · intro l hl hn hs
    rcases (hr.links l).1 hl with ⟨h1, _⟩ | h1
    · exact z.enter l h1 hn hs
    · cases h1 with
      | inner _ _ h3 => simp only [] at hn; exact absurd (by rw [hn]; exact z.isPack) (notnew h3)
      | incoming _ h2 h3 => simp only [] at hn; exact absurd (by rw [hn]; exact z.isPack) (notnew (from5 h2 h3).1)
      | outgoing _ _ h4 =>
        obtain ⟨m, q, h5, h6, h7⟩ := h4
        exact z.enter ⟨m, q, _, _⟩ h6 hn fun hm => hd _ hm (hout _ _ _ h5)
      | through _ _ h4 =>
        obtain ⟨m, q, h5, h6, h7⟩ := h4
        exact z.enter ⟨m, q, _, _⟩ h6 hn fun hm => hd _ hm (hout _ _ _ h5)
  · intro l hl hs hdst
    rcases (hr.links l).1 hl with ⟨h1, h2, h3⟩ | h1
    · obtain ⟨h4, h5⟩ := z.leave l h1 hs hdst
      exact ⟨h4, by rw [(hr.host _ (ht.parent_live _ _ h5).1 h3).2.2.2.2]; exact h5⟩
    · cases h1 with
      | inner _ h3 _ => exact absurd hs (notnew h3)
      | incoming h1 h2 h3 =>
        obtain ⟨m, q, rest, h5, h6, h7⟩ := h1
        obtain ⟨f1, f2⟩ := from5 h2 h3
        refine ⟨(z.leave _ h6 hs fun hm => hd _ hm (hin _ _ _ _ h5)).1, ?_⟩
        rw [(hr.node _ f1).2.2.2.2, if_pos f2]
      | outgoing h1 h2 _ => exact absurd hs (notnew (to6 h1 h2))
      | through _ h1 h4 =>
        obtain ⟨m, q, rest, h5, h6, h7⟩ := h1
        obtain ⟨m', q', h8, h9, h10⟩ := h4
        refine ⟨(z.leave _ h6 hs fun hm => hd _ hm (hin _ _ _ _ h5)).1, ?_⟩
        have h11 := (z'.leave _ h9 (hout _ _ _ h8) h10).2
        rw [(hr.host _ (ht.parent_live _ _ h11).1 h10).2.2.2.2]; exact h11

theorem Rewrites.keep {n n' : Nat} {s' : Subgraph} {r' : Hugr Ops.Op Meta} {f : Nat → Nat} (ht : IsTree h) (hv : Valid C h)
    (z : Rewrites C h p n s r) (z' : Rewrites C h p n' s' r') (hr : Replaced h r' p 5 6 s' f g)
    (hd : ∀ m ∈ s.nodes, m ∉ s'.nodes) : Rewrites C g p n s r := by
  obtain ⟨k, t, us, other, sig, types, packs, h1, h2, h3, h4, h5, h6, h7, h8⟩ := z
  obtain ⟨k', t', us', other', sig', types', packs', q1, q2, q3, _⟩ := z'
  obtain ⟨e1, e2⟩ := h1.keep ht hv q1 q2 q3 hr hd
  refine ⟨k, t, us, other, sig, types, packs, e1, h2, h3, h4, h5, h6, h7, ?_⟩
  rw [tryNew_congr (fun part hp np hnp => e2 _ ((h1.removable ht hv).inputs part hp np hnp))
    (fun np hnp => e2 _ ((h1.removable ht hv).outputs np hnp))]
  exact h8

/-- Applying a rewrite: it is possible, the result is valid, and its functions return the same. -/
theorem Rewrites.apply {n : Nat} (ht : IsTree h) (hv : Valid C h) (hf : Forgets opsInfo.toOpInfo h) (z : Rewrites C h p n s r)
    {news : List Nat} (hlen : news.length = (r.descendants r.entrypoint).length) (hall : Allocated h news) :
    ∃ g map f, simpleReplace s h r news = .ok g map ∧ Replaced h r p 5 6 s f g ∧ IsTree g ∧ Valid C g ∧ Forgets opsInfo.toOpInfo g ∧
      ∀ (W E : Type) (S : Sem W E) k args outs, Returns g S k args outs ↔ Returns h S k args outs := by
  obtain ⟨k, t, us, other, sig, types, packs, h1, h2, h3, h4, h5, h6, h7, h8⟩ := z
  have hm := h1.removable ht hv
  have hs := h1.separable ht hv
  have hb := h2.hasBody h3
  have hu := h2.unordered h3
  obtain ⟨g, map, f, e1, e2, _, e4, e5⟩ := C58_replace ht hv h2.tree h7 hm hb h8 hlen hall
  obtain ⟨g', map', f', q1, q2, q3, q4⟩ := C60_replace_valid ht hv h2.tree h7 rfl rfl hm hs hb h8 hu
    (fun _ _ _ _ => .inr h2.decls) hlen hall
  rw [e1] at q1; cases q1
  refine ⟨g, map, f, e1, e4, e5, q4 ?_, forgets_replace hf e1, ?_⟩
  · intro x t' hx hc
    obtain ⟨rfl, hp⟩ := h2.fresh_iff.1 hx
    rw [h2.pack hp] at hc; cases hc
  · intro W E S k' args outs
    obtain ⟨g2, map2, f2, w1, w2, w3⟩ := C59_replace_results (W := W) (E := E) ht hv hf h2.tree h7 hm hs hb h8 hu hlen hall
    rw [e1] at w1; cases w1
    obtain ⟨_, w4⟩ := w3 S { S with ext := fun x => S.ext (f2 x), const := fun x => S.const (f2 x) } rfl rfl
      (fun R ins outs => h1.same ht hv h2 h3 h4 h5 h6 _ _ R ins outs)
    exact w4 S ⟨fun _ _ _ => rfl, fun _ _ _ => rfl, fun _ _ => rfl, fun _ _ => rfl, rfl, rfl, rfl, rfl, rfl⟩ k' args outs

end Verif.Patch
