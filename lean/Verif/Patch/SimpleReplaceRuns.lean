import Verif.Patch.SimpleReplaceBridge

/-!
# Replacing a subgraph: running
-/
namespace Verif.Patch

open Verif.Graph Verif.Ops Verif.Passes Verif.Validate Verif.Dataflow

variable {Meta W E : Type} {C C' : Validate.Context} {h r g : Hugr Ops.Op Meta} {s : Subgraph} {i o p : Nat}
  {f : Nat → Nat}

namespace SwapAt

variable (z : SwapAt C C' h r g p i o s f)
include z

/-! ## Inside of the replacement -/

omit z in
/-- The wires inside of the replacement. -/
def AgreeF (r : Hugr Ops.Op Meta) (i o : Nat) (f : Nat → Nat) (τ ρ' : Wires W) : Prop :=
  ∀ x, Fresh r i o x → ρ' (f x) = τ x

theorem mem_new {P n : Nat} (hP : Fresh r i o P) : n ∈ g.children (f P) ↔ ∃ x, r.hier.parent x = some P ∧ n = f x := by
  rw [z.replaced.node_children P hP, List.mem_map]
  constructor
  · rintro ⟨x, hx, rfl⟩; exact ⟨x, (z.treeR.child_iff _ _).1 hx, rfl⟩
  · rintro ⟨x, hx, rfl⟩; exact ⟨x, (z.treeR.child_iff _ _).2 hx, rfl⟩

theorem hasIO_new {P a b : Nat} (hP : Fresh r i o P) (hio : HasIO r P a b) : HasIO g (f P) (f a) (f b) := by
  obtain ⟨rest, hr⟩ := hio
  exact ⟨rest.map f, by rw [z.replaced.node_children P hP, hr]; rfl⟩

theorem hasIO_back {P a' b' : Nat} (hP : Fresh r i o P) (hio : HasIO g (f P) a' b') :
    ∃ a b, a' = f a ∧ b' = f b ∧ HasIO r P a b := by
  obtain ⟨rest, hr⟩ := hio
  rw [z.replaced.node_children P hP] at hr
  match hc : r.children P with
  | [] => rw [hc] at hr; cases hr
  | [_] => rw [hc] at hr; cases hr
  | a :: b :: rs =>
    rw [hc] at hr
    simp only [List.map_cons, List.cons.injEq] at hr
    exact ⟨a, b, hr.1.symm, hr.2.1.symm, rs, hc⟩

theorem hasIO_mem {P a b : Nat} (hio : HasIO r P a b) : r.hier.parent a = some P ∧ r.hier.parent b = some P := by
  obtain ⟨rest, hr⟩ := hio
  have hr : r.hier.children P = _ := hr
  exact ⟨(z.treeR.child_iff _ _).1 (by rw [hr]; simp), (z.treeR.child_iff _ _).1 (by rw [hr]; simp)⟩

theorem not_top {x P : Nat} (hp : r.hier.parent x = some P) (hP : Fresh r i o P) :
    r.hier.parent x ≠ some r.entrypoint := by
  rw [hp]
  rintro e
  cases e
  exact z.entry_not_fresh hP

/-- Links between blocks. -/
theorem jump_new {l : Link} {x : Nat} (hx : Fresh r i o x) (hs : l.src = x) (hl : l ∈ r.links)
    (hd : ∀ ts, r.ops l.dst ≠ .output ts) : Fresh r i o l.dst ∧ (⟨f x, l.srcPort, f l.dst, l.dstPort⟩ : Link) ∈ g.links := by
  subst hs
  have hne : l.dst ≠ o := by
    intro e
    obtain ⟨_, _, _, _, _, _, eo, _⟩ := z.children
    rw [e, eo] at hd
    exact hd _ rfl
  have := z.fresh_dst hl hx hne
  exact ⟨this, z.link_new hl hx this⟩

theorem jump_back {l : Link} {x : Nat} (hx : Fresh r i o x) (hs : l.src = f x) (hl : l ∈ g.links)
    (hd : ∀ kind ∈ (g.ops l.dst).ports .incoming, kind = .controlFlow) :
    ∃ y, Fresh r i o y ∧ l.dst = f y ∧ ⟨x, l.srcPort, y, l.dstPort⟩ ∈ r.links := by
  rcases (z.replaced.links l).1 hl with ⟨h1, _, _⟩ | hn
  · exact absurd hs (z.old (z.live_link h1).1 hx)
  · cases hn with
    | inner h1 h2 h3 =>
      cases z.replaced.injective _ _ h2 hx hs
      exact ⟨_, h3, rfl, h1⟩
    | incoming h1 _ _ => exact absurd hs (z.old (z.feeds_live h1).1 hx)
    | outgoing _ _ hu =>
      obtain ⟨t, ht, _⟩ := z.uses_kind hu
      obtain ⟨_, _, _, _, q3, q4⟩ := z.uses_link hu
      simp only [] at hd
      rw [z.ops_old (z.live_link q3).2 q4] at hd
      have := hd _ (List.mem_of_getElem? ht)
      cases this
    | through _ h2 _ => exact absurd hs (z.old (z.feeds_live h2).1 hx)

variable {S Sr S' : Sem W E}

omit z in
/-- What a run inside of the replacement gives in the result. -/
def Copied (g : Hugr Ops.Op Meta) (S' : Sem W E) (r : Hugr Ops.Op Meta) (i o : Nat) (f : Nat → Nat) : Task W → Prop
  | .graph ρ P vals outs σ => Fresh r i o P → ∀ ρ', AgreeF r i o f ρ ρ' →
      ∃ σ', Runs g S' (.graph ρ' (f P) vals outs σ') ∧ AgreeF r i o f σ σ'
  | .node ρ n ins outs => Fresh r i o n → ∀ ρ', AgreeF r i o f ρ ρ' → Runs g S' (.node ρ' (f n) ins outs)
  | .loop ρ n ins outs => Fresh r i o n → ∀ ρ', AgreeF r i o f ρ ρ' → Runs g S' (.loop ρ' (f n) ins outs)
  | .blocks ρ b ins outs => Fresh r i o b → ∀ ρ', AgreeF r i o f ρ ρ' → Runs g S' (.blocks ρ' (f b) ins outs)

/-- What a call does. -/
theorem answered {n : Nat} {k : Nat} {ins args outs : List (Val W)} {ρ : Wires W} {h : Hugr Ops.Op Meta} {S : Sem W E}
    (hc : Calls h n ins k args) (hl : outs.length = numOuts (h.ops n)) (ha : Answer h S k args outs) :
    Runs h S (.node ρ n ins outs) := by
  rcases ha with ⟨hd, σ, hr⟩ | ⟨hd, he⟩
  · exact .call hc hd hl hr
  · exact .leaf (.external hc hd hl he)

theorem copied (hS : Merges h r s i o f S Sr S') {R : Answers W} (hR : R = Answer g S') {t : Task W}
    (hr : Runs (bodiless r) (answering Sr R) t) : Copied g S' r i o f t := by
  subst hR
  induction hr with
  | @graph ρ σ P i0 o0 vals res ins outs hio hout hvals hlen hno hready hval hsize hruns hres ih =>
    intro hP ρ' ha
    have hio : HasIO r P i0 o0 := hio
    obtain ⟨hpi, hpo⟩ := z.hasIO_mem hio
    have hch : ∀ x, r.hier.parent x = some P → Fresh r i o x := fun x hx => z.child_fresh' hx hP
    have hpar : ∀ x, x ∈ r.children P ↔ r.hier.parent x = some P := fun x => z.treeR.child_iff P x
    classical
    let σ' : Wires W := fun n => if hn : ∃ x, r.hier.parent x = some P ∧ n = f x then σ hn.choose else ρ' n
    have s1 : ∀ x, r.hier.parent x = some P → σ' (f x) = σ x := by
      intro x hx
      have hn : ∃ y, r.hier.parent y = some P ∧ f x = f y := ⟨x, hx, rfl⟩
      have e : σ' (f x) = σ hn.choose := dif_pos hn
      rw [e, ← z.replaced.injective _ _ (hch x hx) (hch _ hn.choose_spec.1) hn.choose_spec.2]
    have s2 : ∀ n, (¬ ∃ x, r.hier.parent x = some P ∧ n = f x) → σ' n = ρ' n := fun n hn => dif_neg hn
    have a1 : AgreeF r i o f σ σ' := by
      intro x hx
      by_cases hxp : r.hier.parent x = some P
      · exact s1 x hxp
      · rw [s2 _ (by
          rintro ⟨y, hy, e⟩
          exact hxp (by rw [z.replaced.injective _ _ hx (hch y hy) e]; exact hy)), ha x hx,
          hout x (fun hm => hxp ((hpar x).1 hm))]
    have hinner : ∀ n, Inner g (f P) (f i0) (f o0) n → ∃ x, n = f x ∧ Inner r P i0 o0 x ∧ r.hier.parent x = some P := by
      rintro n ⟨h1, h2, h3⟩
      obtain ⟨x, hx, rfl⟩ := (z.mem_new hP).1 h1
      exact ⟨x, rfl, ⟨(hpar x).2 hx, fun e => h2 (by rw [e]), fun e => h3 (by rw [e])⟩, hx⟩
    refine ⟨σ', ?_, a1⟩
    let inv : Nat → Nat := fun n => if hn : ∃ x, r.hier.parent x = some P ∧ n = f x then hn.choose else 0
    have hinv : ∀ x, r.hier.parent x = some P → inv (f x) = x := by
      intro x hx
      have hn : ∃ y, r.hier.parent y = some P ∧ f x = f y := ⟨x, hx, rfl⟩
      have e : inv (f x) = hn.choose := dif_pos hn
      rw [e, ← z.replaced.injective _ _ (hch x hx) (hch _ hn.choose_spec.1) hn.choose_spec.2]
    refine .graph (i := f i0) (o := f o0) (ins := fun n => ins (inv n)) (outs := fun n => outs (inv n))
      (z.hasIO_new hP hio) ?_ ?_ ?_ ?_ ?_ ?_ ?_ ?_ ?_
    · intro n hn
      exact s2 n fun hh => hn ((z.mem_new hP).2 hh)
    · rw [s1 _ hpi]; exact hvals
    · rw [hlen, bodiless_outs, z.ops_new (hch _ hpi)]
    · rw [s1 _ hpo]; exact hno
    · intro n hn
      obtain ⟨x, rfl, hx, hxp⟩ := hinner n hn
      rw [hinv x hxp]
      exact (z.ready_inner a1 (hch x hxp) (z.not_top hxp hP)).1 (bodiless_ready.1 (hready x hx))
    · intro n hn
      obtain ⟨x, rfl, hx, hxp⟩ := hinner n hn
      rw [hinv x hxp, s1 x hxp]
      exact hval x hx
    · intro n hn
      obtain ⟨x, rfl, hx, hxp⟩ := hinner n hn
      rw [hinv x hxp, hsize x hx, bodiless_outs, z.ops_new (hch x hxp)]
    · intro n hn
      obtain ⟨x, rfl, hx, hxp⟩ := hinner n hn
      rw [hinv x hxp]
      exact ih x hx (hch x hxp) σ' a1
    · exact (z.ready_inner a1 (hch _ hpo) (z.not_top hpo hP)).1 (bodiless_ready.1 hres)
  | leaf hl =>
    intro hn ρ' ha
    rcases z.leaf_new hS hn hl with hl | ⟨k, args, h1, h2, h3⟩
    · exact .leaf hl
    · exact z.answered h1 h2 h3
  | const hop =>
    intro hn ρ' ha
    exact .const ((z.ops_new hn).trans ((z.bodiless_new hn).symm.trans hop))
  | dfg hop hr ih =>
    intro hn ρ' ha
    obtain ⟨σ', r', _⟩ := ih hn ρ' ha
    exact .dfg ((z.ops_new hn).trans ((z.bodiless_new hn).symm.trans hop)) r'
  | @cond ρ σ n c tag rows other ots row elems rst outs hop hc hrow hlen hr ih =>
    intro hn ρ' ha
    have hc : (r.children n)[tag]? = some c := hc
    have hcp := (z.treeR.child_iff n c).1 (List.mem_of_getElem? hc)
    obtain ⟨σ', r', _⟩ := ih (z.child_fresh' hcp hn) ρ' ha
    refine .cond ((z.ops_new hn).trans ((z.bodiless_new hn).symm.trans hop)) ?_ hrow hlen r'
    rw [z.replaced.node_children n hn, List.getElem?_map, hc]; rfl
  | tailLoop hop hr ih =>
    intro hn ρ' ha
    exact .tailLoop ((z.ops_new hn).trans ((z.bodiless_new hn).symm.trans hop)) (ih hn ρ' ha)
  | again hop hlen hr hr2 ih ih2 =>
    intro hn ρ' ha
    obtain ⟨σ', r', _⟩ := ih hn ρ' ha
    exact .again ((z.ops_new hn).trans ((z.bodiless_new hn).symm.trans hop)) hlen r' (ih2 hn ρ' ha)
  | done hop hlen hr ih =>
    intro hn ρ' ha
    obtain ⟨σ', r', _⟩ := ih hn ρ' ha
    exact .done ((z.ops_new hn).trans ((z.bodiless_new hn).symm.trans hop)) hlen r'
  | @cfg ρ n entry rst sg ins outs hop hc hr ih =>
    intro hn ρ' ha
    have hc : r.children n = entry :: rst := hc
    have hcp := (z.treeR.child_iff n entry).1 (by change entry ∈ r.children n; rw [hc]; simp)
    refine .cfg ((z.ops_new hn).trans ((z.bodiless_new hn).symm.trans hop)) (rest := rst.map f) ?_
      (ih (z.child_fresh' hcp hn) ρ' ha)
    rw [z.replaced.node_children n hn, hc]; rfl
  | @jump ρ σ b tag x other y w rows ww row ins elems others outs l hop hrow hlen hl hsrc hsp hdst hr hr2 ih ih2 =>
    intro hn ρ' ha
    have hdst := (bodiless_iff (by simp) (by simp)).1 hdst
    obtain ⟨hf, hl'⟩ := z.jump_new hn hsrc hl (by rw [hdst]; simp)
    obtain ⟨σ', r', a1⟩ := ih hn ρ' ha
    exact .jump (l := ⟨f b, l.srcPort, f l.dst, l.dstPort⟩) ((z.ops_new hn).trans ((z.bodiless_new hn).symm.trans hop)) hrow hlen
      hl' rfl hsp ((z.ops_new hf).trans hdst) r' (ih2 hf σ' a1)
  | @exit ρ σ b tag x other ots rows row ins elems others l hop hrow hlen hl hsrc hsp hdst hr ih =>
    intro hn ρ' ha
    have hdst := (bodiless_iff (by simp) (by simp)).1 hdst
    obtain ⟨hf, hl'⟩ := z.jump_new hn hsrc hl (by rw [hdst]; simp)
    obtain ⟨σ', r', a1⟩ := ih hn ρ' ha
    exact .exit (l := ⟨f b, l.srcPort, f l.dst, l.dstPort⟩) ((z.ops_new hn).trans ((z.bodiless_new hn).symm.trans hop)) hrow hlen
      hl' rfl hsp ((z.ops_new hf).trans hdst) r'
  | call _ hf => exact (bodiless_defn _ hf).elim

/-! ## The region of the subgraph -/

theorem top_mem {x : Nat} : x ∈ (r.children r.entrypoint).drop 2 ↔ r.hier.parent x = some r.entrypoint ∧ Fresh r i o x := by
  obtain ⟨_, _, rest, _, hch, _⟩ := z.children
  have hnd := z.treeR.child_once r.entrypoint
  have hm := z.treeR.child_iff r.entrypoint x
  change (r.children r.entrypoint).Nodup at hnd
  change x ∈ r.children r.entrypoint ↔ _ at hm
  rw [hch, List.nodup_cons, List.nodup_cons] at hnd
  rw [hch] at hm ⊢
  simp only [List.drop_succ_cons, List.drop_zero]
  constructor
  · intro hx
    have hp := hm.1 (by simp [hx])
    refine ⟨hp, z.child_fresh hp (.inl rfl) ?_ ?_⟩
    · rintro rfl; exact hnd.1 (by simp [hx])
    · rintro rfl; exact hnd.2.1 hx
  · rintro ⟨hp, hf⟩
    have := hm.2 hp
    simp only [List.mem_cons] at this
    rcases this with e | e | e
    · exact absurd e hf.2.1
    · exact absurd e hf.2.2
    · exact e

theorem mem_p {n : Nat} : n ∈ g.children p ↔ (h.hier.parent n = some p ∧ n ∉ s.nodes) ∨
    ∃ x, r.hier.parent x = some r.entrypoint ∧ Fresh r i o x ∧ n = f x := by
  rw [z.replaced.region, List.mem_append, List.mem_filter, List.mem_map]
  have hm := z.tree.child_iff p n
  change n ∈ h.children p ↔ _ at hm
  rw [hm]
  simp only [decide_eq_true_eq]
  refine or_congr Iff.rfl ⟨?_, ?_⟩
  · rintro ⟨x, hx, rfl⟩
    exact ⟨x, (z.top_mem.1 hx).1, (z.top_mem.1 hx).2, rfl⟩
  · rintro ⟨x, h1, h2, rfl⟩
    exact ⟨x, z.top_mem.2 ⟨h1, h2⟩, rfl⟩

theorem io_kept : ∃ i0 o0 ti tj, HasIO h p i0 o0 ∧ HasIO g p i0 o0 ∧ h.ops i0 = .input ti ∧ h.ops o0 = .output tj ∧
    i0 ∉ s.nodes ∧ o0 ∉ s.nodes ∧ h.hier.parent i0 = some p ∧ h.hier.parent o0 = some p := by
  obtain ⟨i0, o0, ti, tj, hio, h1, h2⟩ := body_children z.valid z.p_live z.removable.region
  have n1 : i0 ∉ s.nodes := fun hn => z.sep.noIO _ hn (.inl ⟨_, h1⟩)
  have n2 : o0 ∉ s.nodes := fun hn => z.sep.noIO _ hn (.inr ⟨_, h2⟩)
  obtain ⟨rest, hr⟩ := id hio
  have hr' : h.hier.children p = _ := hr
  refine ⟨i0, o0, ti, tj, hio, ⟨rest.filter (· ∉ s.nodes) ++ ((r.children r.entrypoint).drop 2).map f, ?_⟩, h1, h2, n1, n2,
    (z.tree.child_iff _ _).1 (by rw [hr']; simp), (z.tree.child_iff _ _).1 (by rw [hr']; simp)⟩
  rw [z.replaced.region, hr]
  simp [n1, n2]

theorem child_live {n q : Nat} (hp : h.hier.parent n = some q) : h.live n = true := (z.tree.parent_live _ _ hp).1

theorem mem_other {P n : Nat} (hP : h.live P = true) (hk : P ∉ s.nodes) (hne : P ≠ p) :
    n ∈ g.children P ↔ h.hier.parent n = some P := by
  rw [z.replaced.host_children P hP hk hne]
  exact z.tree.child_iff P n

theorem kept_child {P n : Nat} (hne : P ≠ p) (hp : h.hier.parent n = some P) : n ∉ s.nodes := by
  intro hn
  rw [z.removable.parent n hn] at hp
  cases hp
  exact hne rfl

omit z in
/-- The wires outside of the replacement. -/
def AgreeH (h r : Hugr Ops.Op Meta) (s : Subgraph) (i o : Nat) (f : Nat → Nat) (ρ ρ' : Wires W) : Prop :=
  (∀ n, h.live n = true → n ∉ s.nodes → ρ' n = ρ n) ∧
  ∀ x, Fresh r i o x → r.hier.parent x ≠ some r.entrypoint → ρ' (f x) = noWires x

/-- The children of a region other than that of the subgraph. -/
theorem agree_step {P : Nat} (hP : h.live P = true) (hk : P ∉ s.nodes) (hne : P ≠ p) {ρ ρ' σ σ' : Wires W}
    (h1 : ∀ n, h.hier.parent n ≠ some P → σ n = ρ n) (h2 : ∀ n, h.hier.parent n ≠ some P → σ' n = ρ' n)
    (h3 : ∀ n, h.hier.parent n = some P → σ' n = σ n) (ha : AgreeH h r s i o f ρ ρ') : AgreeH h r s i o f σ σ' := by
  constructor
  · intro n hn hkn
    by_cases hp : h.hier.parent n = some P
    · exact h3 n hp
    · rw [h1 n hp, h2 n hp, ha.1 n hn hkn]
  · intro x hx hp
    rw [h2 _ (fun hh => z.old (z.child_live hh) hx rfl), ha.2 x hx hp]

end SwapAt
end Verif.Patch
