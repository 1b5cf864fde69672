import Verif.Patch.CfgToDfgValid
import Verif.Patch.UntupleMeans
import Verif.Patch.Extra

/-!
# A control-flow graph that becomes a dataflow graph: results
-/
namespace Verif.Patch

open Verif.Graph Verif.Ops Verif.Passes Verif.Validate Verif.Dataflow

variable {Meta W K : Type} {C : Validate.Context} {h g : Hugr Ops.Op Meta} {S : Sem W K}

namespace BecomesDfg

variable {p G E X i o w : Nat} {more inner : List Nat} {sig : Types.Signature} {row other : List Types.Ty}
  (z : BecomesDfg C h g p G E X i o w more inner sig row other)
include z

theorem goes_no_defn {f : Nat} (hf : Goes h G E f) : ¬ IsDefn h f := by
  rintro ⟨name, sg, e⟩
  have hm : h.ops G ≠ .module := fun e => by rw [z.at'.op] at e; cases e
  rcases hf with rfl | ⟨c, h1, _, h3⟩
  · rw [z.at'.opE] at e; cases e
  · exact no_function z.tree z.valid h3 h1 hm name sg e

theorem same_defn (hb : ¬ IsDefn h w) (f : Nat) : IsDefn h f ↔ IsDefn g f := by
  by_cases hl : g.live f = true
  · rcases z.live_cases hl with ⟨h1, h2⟩ | rfl
    · by_cases hG : f = G
      · subst hG; unfold IsDefn; rw [z.op_G, z.at'.op]; simp
      · by_cases ho : f = o
        · subst ho; unfold IsDefn; rw [z.op_o, z.at'.opO]; simp
        · unfold IsDefn; rw [z.ops h1 h2 hG ho]
    · refine ⟨fun h => absurd h hb, ?_⟩
      rintro ⟨_, _, e⟩; rw [z.op_w] at e; cases e
  · have hg := z.put.gone f (by simpa using hl)
    by_cases hh : h.live f = true
    · rw [if_pos hh] at hg
      have hgo : Goes h G E f := by
        by_contra hc; exact hl (z.live_kept hh hc)
      refine ⟨fun h => absurd h (z.goes_no_defn hgo), ?_⟩
      rintro ⟨_, _, e⟩; rw [hg] at e; cases e
    · rw [if_neg hh] at hg
      unfold IsDefn; rw [hg]

/-- Links to what stays, other than the output. -/
theorem link_up {l : Link} (hl : l ∈ h.links) (hd : ¬ Goes h G E l.dst) (ho : l.dst ≠ o) : l ∈ g.links :=
  z.mem_links.2 (.inl ⟨l, hl, z.at'.src_stays hl hd, hd, (redirect_ne ho).symm⟩)

theorem link_down {l : Link} (hl : l ∈ g.links) (hw : l.dst ≠ w) (ho : l.dst ≠ o) :
    l ∈ h.links ∧ ¬ Goes h G E l.src ∧ ¬ Goes h G E l.dst := by
  rcases z.mem_links.1 hl with ⟨k, hk, k1, k2, rfl⟩ | ⟨r, _, rfl⟩
  · rcases redirect_dst (o := o) (w := w) (len := row.length) k with ⟨_, e⟩ | ⟨_, _, e⟩ | ⟨_, j, _, e⟩
    · rw [e]; exact ⟨hk, k1, k2⟩
    · rw [e] at hw; exact absurd rfl hw
    · rw [e] at ho; exact absurd rfl ho
  · exact absurd rfl ho

/-- Links of a block. -/
theorem flow_stays {l : Link} (hl : l ∈ h.links) {x y : List Types.Ty} {r : List (List Types.Ty)}
    (hs : ¬ Goes h G E l.src) (hop : h.ops l.src = .dataflowBlock x y r) : ¬ Goes h G E l.dst := by
  intro hd
  obtain ⟨kind, h1, h2⟩ := z.at'.lost hl hs hd
  unfold srcKind at h1
  rw [hop] at h1
  have hm := List.mem_of_getElem? h1
  have hk : kind = .controlFlow := by
    simp only [Op.ports, List.mem_map] at hm
    obtain ⟨_, _, e⟩ := hm; exact e.symm
  subst hk
  rcases h2 with h2 | ⟨t, e, _⟩
  · cases h2
  · cases e

theorem ready_up {σ σ' : Wires W} (hσ : EqOff w σ σ') {n : Nat} (h1 : h.live n = true) (h2 : ¬ Goes h G E n) (ho : n ≠ o)
    {ins : List (Val W)} (hr : Ready h σ n ins) : Ready g σ' n ins := by
  refine ⟨by unfold numIns; rw [z.in_ports h1 h2 ho]; exact hr.1, fun k v hk => ?_⟩
  obtain ⟨l, l1, l2, l3, l4⟩ := hr.2 k v hk
  exact ⟨l, z.link_up l1 (by rw [l2]; exact h2) (by rw [l2]; exact ho), l2, l3,
    by rw [← hσ _ (z.ne_w (z.live_link l1).1)]; exact l4⟩

theorem ready_down {σ σ' : Wires W} (hσ : EqOff w σ σ') {n : Nat} (h1 : h.live n = true) (h2 : ¬ Goes h G E n) (ho : n ≠ o)
    {ins : List (Val W)} (hr : Ready g σ' n ins) : Ready h σ n ins := by
  refine ⟨by have := hr.1; unfold numIns at this; rw [z.in_ports h1 h2 ho] at this; exact this, fun k v hk => ?_⟩
  obtain ⟨l, l1, l2, l3, l4⟩ := hr.2 k v hk
  have hl := (z.link_down l1 (by rw [l2]; exact z.ne_w h1) (by rw [l2]; exact ho)).1
  exact ⟨l, hl, l2, l3, by rw [hσ _ (z.ne_w (z.live_link hl).1)]; exact l4⟩

theorem numOuts_eq {n : Nat} (h1 : h.live n = true) (h2 : ¬ Goes h G E n) : numOuts (g.ops n) = numOuts (h.ops n) := by
  unfold numOuts; rw [z.out_ports h1 h2]

theorem calls_up {n f : Nat} (h1 : h.live n = true) (h2 : ¬ Goes h G E n) {ins args : List (Val W)}
    (hc : Calls h n ins f args) : Calls g n ins f args := by
  have hop : ∀ {op}, h.ops n = op → op ≠ .cfg sig → op ≠ .output (sumOf [row] :: other) → g.ops n = op := by
    intro op e q1 q2
    rw [z.ops h1 h2 (by rintro rfl; exact q1 (e ▸ z.at'.op)) (by rintro rfl; exact q2 (e ▸ z.at'.opO))]; exact e
  cases hc with
  | @direct _ _ _ _ l e h2' h3 h4 =>
    refine .direct (hop e (by simp) (by simp)) (z.link_up h2' (by rw [h3]; exact h2) ?_) h3 h4
    rintro e'
    rw [h3] at e'; rw [e', z.at'.opO] at e; cases e
  | indirect e => exact .indirect (hop e (by simp) (by simp))

theorem ops_down {n : Nat} (h1 : h.live n = true) (h2 : ¬ Goes h G E n) {op : Ops.Op} (e : g.ops n = op)
    (q1 : op ≠ .dfg sig) (q2 : op ≠ .output sig.output) : h.ops n = op ∧ n ≠ G ∧ n ≠ o := by
  have hG : n ≠ G := by rintro rfl; exact q1 (e ▸ z.op_G)
  have ho : n ≠ o := by rintro rfl; exact q2 (e ▸ z.op_o)
  exact ⟨by rw [← z.ops h1 h2 hG ho]; exact e, hG, ho⟩

theorem ops_up {n : Nat} (h1 : h.live n = true) (h2 : ¬ Goes h G E n) {op : Ops.Op} (e : h.ops n = op)
    (q1 : op ≠ .cfg sig) (q2 : op ≠ .output (sumOf [row] :: other)) : g.ops n = op ∧ n ≠ G ∧ n ≠ o := by
  have hG : n ≠ G := by rintro rfl; exact q1 (e ▸ z.at'.op)
  have ho : n ≠ o := by rintro rfl; exact q2 (e ▸ z.at'.opO)
  exact ⟨by rw [z.ops h1 h2 hG ho]; exact e, hG, ho⟩

theorem calls_down {n f : Nat} (h1 : h.live n = true) (h2 : ¬ Goes h G E n) {ins args : List (Val W)}
    (hc : Calls g n ins f args) : Calls h n ins f args := by
  cases hc with
  | @direct _ _ _ _ l e h2' h3 h4 =>
    obtain ⟨e', _, ho⟩ := z.ops_down h1 h2 e (by simp) (by simp)
    exact .direct e' (z.link_down h2' (by rw [h3]; exact z.ne_w h1) (by rw [h3]; exact ho)).1 h3 h4
  | indirect e => exact .indirect (z.ops_down h1 h2 e (by simp) (by simp)).1

theorem leaf_up (hb : ¬ IsDefn h w) {n : Nat} (h1 : h.live n = true) (h2 : ¬ Goes h G E n) {ins outs : List (Val W)}
    (hf : Leaf h S n ins outs) : Leaf g S n ins outs := by
  cases hf with
  | makeTuple e => exact .makeTuple (z.ops_up h1 h2 e (by simp) (by simp)).1
  | unpackTuple e q => exact .unpackTuple (z.ops_up h1 h2 e (by simp) (by simp)).1 q
  | tag e => exact .tag (z.ops_up h1 h2 e (by simp) (by simp)).1
  | @loadConstant _ _ l e q1 q2 q3 q4 =>
    obtain ⟨e', _, ho⟩ := z.ops_up h1 h2 e (by simp) (by simp)
    have hd : ¬ Goes h G E l.dst := by rw [q2]; exact h2
    exact .loadConstant e' (z.link_up q1 hd (by rw [q2]; exact ho)) q2 q3
      (z.ops_up (z.live_link q1).1 (z.at'.src_stays q1 hd) q4 (by simp) (by simp)).1
  | @loadFunction _ _ _ l e q1 q2 q3 =>
    obtain ⟨e', _, ho⟩ := z.ops_up h1 h2 e (by simp) (by simp)
    have hd : ¬ Goes h G E l.dst := by rw [q2]; exact h2
    exact .loadFunction e' (z.link_up q1 hd (by rw [q2]; exact ho)) q2 q3
  | ext e q1 q2 q3 => exact .ext (z.ops_up h1 h2 e (by simp) (by simp)).1 q1 q2 q3
  | external q1 q2 q3 q4 =>
    exact .external (z.calls_up h1 h2 q1) (fun hd => q2 ((z.same_defn hb _).2 hd)) (by rw [z.numOuts_eq h1 h2]; exact q3) q4
  | unknown e q2 q3 =>
    exact .unknown (z.ops_up h1 h2 e (by simp) (by simp)).1 (by rw [z.numOuts_eq h1 h2]; exact q2) q3

theorem leaf_down (hb : ¬ IsDefn h w) {n : Nat} (h1 : h.live n = true) (h2 : ¬ Goes h G E n) {ins outs : List (Val W)}
    (hf : Leaf g S n ins outs) : Leaf h S n ins outs := by
  cases hf with
  | makeTuple e => exact .makeTuple (z.ops_down h1 h2 e (by simp) (by simp)).1
  | unpackTuple e q => exact .unpackTuple (z.ops_down h1 h2 e (by simp) (by simp)).1 q
  | tag e => exact .tag (z.ops_down h1 h2 e (by simp) (by simp)).1
  | @loadConstant _ _ l e q1 q2 q3 q4 =>
    obtain ⟨e', _, ho⟩ := z.ops_down h1 h2 e (by simp) (by simp)
    obtain ⟨m1, m2, m3⟩ := z.link_down q1 (by rw [q2]; exact z.ne_w h1) (by rw [q2]; exact ho)
    exact .loadConstant e' m1 q2 q3 (z.ops_down (z.live_link m1).1 m2 q4 (by simp) (by simp)).1
  | @loadFunction _ _ _ l e q1 q2 q3 =>
    obtain ⟨e', _, ho⟩ := z.ops_down h1 h2 e (by simp) (by simp)
    obtain ⟨m1, m2, m3⟩ := z.link_down q1 (by rw [q2]; exact z.ne_w h1) (by rw [q2]; exact ho)
    exact .loadFunction e' m1 q2 q3
  | ext e q1 q2 q3 => exact .ext (z.ops_down h1 h2 e (by simp) (by simp)).1 q1 q2 q3
  | external q1 q2 q3 q4 =>
    exact .external (z.calls_down h1 h2 q1) (fun hd => q2 ((z.same_defn hb _).1 hd)) (by rw [← z.numOuts_eq h1 h2]; exact q3) q4
  | unknown e q2 q3 =>
    exact .unknown (z.ops_down h1 h2 e (by simp) (by simp)).1 (by rw [← z.numOuts_eq h1 h2]; exact q2) q3

end BecomesDfg

/-- What is to be run with the dataflow graph. -/
def AsGraph (h g : Hugr Ops.Op Meta) (S : Sem W K) (G E w : Nat) (len : Nat) : Task W → Prop
  | .graph ρ p vals outs σ =>
      (¬ Goes h G E p → p ≠ G → ∀ ρ', EqOff w ρ ρ' → ∃ σ', EqOff w σ σ' ∧ Runs g S (.graph ρ' p vals outs σ')) ∧
      (p = E → ∀ elems others, outs = .sum 0 elems :: others → elems.length = len →
        ∀ ρ', EqOff w ρ ρ' → ∃ σ', Runs g S (.graph ρ' G vals (elems ++ others) σ'))
  | .node ρ n ins outs => h.live n = true → ¬ Goes h G E n → ∀ ρ', EqOff w ρ ρ' → Runs g S (.node ρ' n ins outs)
  | .loop ρ n ins outs => h.live n = true → ¬ Goes h G E n → ∀ ρ', EqOff w ρ ρ' → Runs g S (.loop ρ' n ins outs)
  | .blocks ρ b ins outs =>
      (h.live b = true → ¬ Goes h G E b → ∀ ρ', EqOff w ρ ρ' → Runs g S (.blocks ρ' b ins outs)) ∧
      (b = E → ∀ ρ', EqOff w ρ ρ' → ∃ σ', Runs g S (.graph ρ' G ins outs σ'))

/-- What is to be run with the control-flow graph. -/
def AsBlocks (h g : Hugr Ops.Op Meta) (S : Sem W K) (G E w : Nat) (len : Nat) : Task W → Prop
  | .graph ρ' p vals outs σ' =>
      (p ≠ G → p ≠ w → ∀ ρ, EqOff w ρ ρ' → ∃ σ, EqOff w σ σ' ∧ Runs h S (.graph ρ p vals outs σ)) ∧
      (p = G → ∀ ρ, EqOff w ρ ρ' → ∃ elems others σ, outs = elems ++ others ∧ elems.length = len ∧
        Runs h S (.graph ρ E vals (.sum 0 elems :: others) σ))
  | .node ρ' n ins outs => h.live n = true → ¬ Goes h G E n → ∀ ρ, EqOff w ρ ρ' → Runs h S (.node ρ n ins outs)
  | .loop ρ' n ins outs => h.live n = true → ¬ Goes h G E n → ∀ ρ, EqOff w ρ ρ' → Runs h S (.loop ρ n ins outs)
  | .blocks ρ' b ins outs => h.live b = true → ¬ Goes h G E b → ∀ ρ, EqOff w ρ ρ' → Runs h S (.blocks ρ b ins outs)

namespace BecomesDfg

variable {p G E X i o w : Nat} {more inner : List Nat} {sig : Types.Signature} {row other : List Types.Ty}
  (z : BecomesDfg C h g p G E X i o w more inner sig row other)
include z

theorem child_kept {q n : Nat} (hq : ¬ Goes h G E q) (hG : q ≠ G) (hn : n ∈ h.children q) :
    h.live n = true ∧ ¬ Goes h G E n := by
  have hp : h.hier.parent n = some q := (z.tree.child_iff _ _).1 hn
  exact ⟨(z.tree.parent_live _ _ hp).1, z.kid_of_stays hq hG hp⟩

theorem not_o {q : Nat} (hq : ¬ Goes h G E q) : o ∉ h.children q := fun hc => by
  have : h.hier.parent o = some q := (z.tree.child_iff _ _).1 hc
  rw [z.up_o] at this; cases this; exact hq (.inl rfl)

theorem case_ne {n c : Nat} {x : List (List Types.Ty)} {y v : List Types.Ty} (hop : h.ops n = .conditional x y v)
    (hc : c ∈ h.children n) : c ≠ G := by
  rintro rfl
  have := z.valid.contains _ _ ((z.tree.child_iff _ _).1 hc)
  rw [hop, z.at'.op] at this
  exact this

theorem inner_iff {n : Nat} : Inner g G i o n ↔ Inner h E i o n ∨ n = w := by
  have hiw := z.ne_w z.live_i
  have how := z.o_ne_w
  unfold Inner
  rw [z.kids_G, z.at'.inside]
  constructor
  · rintro ⟨h1, h2, h3⟩
    simp only [List.mem_cons, List.mem_append, List.not_mem_nil, or_false] at h1
    rcases h1 with h1 | h1 | h1 | h1
    · exact absurd h1 h2
    · exact absurd h1 h3
    · exact .inl ⟨by simp [h1], h2, h3⟩
    · exact .inr h1
  · rintro (⟨h1, h2, h3⟩ | rfl)
    · refine ⟨?_, h2, h3⟩
      simp only [List.mem_cons] at h1
      simp only [List.mem_cons, List.mem_append]
      tauto
    · exact ⟨by simp, Ne.symm hiw, Ne.symm how⟩

theorem up_run (hb : ¬ IsDefn h w) {t : Task W} (hr : Runs h S t) : AsGraph h g S G E w row.length t := by
  induction hr with
  | @graph ρ σ q i' o' vals res ins outs h1 h2 h3 h4 h5 h6 h7 h8 _ h10 ih =>
    have hql : h.live q = true := by
      obtain ⟨rest, h1⟩ := h1
      by_contra hc
      have := (z.tree.dead (by simpa using hc)).2
      change h.children q = [] at this
      rw [this] at h1; cases h1
    refine ⟨fun hq hG ρ' hρ => ?_, ?_⟩
    · have kept := fun n hn => z.child_kept (n := n) hq hG hn
      have hmem := Extra.hasIO_mem h1
      have hoq := z.not_o hq
      have hkids := z.kids hql hq hG
      let σ' : Wires W := fun n => if n = w then ρ' w else σ n
      have hσ : EqOff w σ σ' := fun n hn => by simp [σ', hn]
      have hσw : σ' w = ρ' w := by simp [σ']
      have hin : ∀ {n}, Inner g q i' o' n → Inner h q i' o' n := fun h => ⟨by rw [← hkids]; exact h.1, h.2⟩
      refine ⟨σ', hσ, .graph (ins := ins) (outs := outs) (by unfold HasIO; rw [hkids]; exact h1) ?_ ?_ ?_ ?_ ?_ ?_ ?_ ?_ ?_⟩
      · intro n hn
        rw [hkids] at hn
        by_cases hnw : n = w
        · rw [hnw, hσw]
        · rw [← hσ n hnw, ← hρ n hnw]; exact h2 n hn
      · rw [← hσ _ (z.ne_w (kept _ hmem.1).1)]; exact h3
      · rw [z.numOuts_eq (kept _ hmem.1).1 (kept _ hmem.1).2]; exact h4
      · rw [← hσ _ (z.ne_w (kept _ hmem.2).1)]; exact h5
      · intro n hn
        obtain ⟨k1, k2⟩ := kept n (hin hn).1
        exact z.ready_up hσ k1 k2 (fun e => hoq (e ▸ (hin hn).1)) (h6 n (hin hn))
      · intro n hn
        rw [← hσ _ (z.ne_w (kept n (hin hn).1).1)]; exact h7 n (hin hn)
      · intro n hn
        obtain ⟨k1, k2⟩ := kept n (hin hn).1
        rw [z.numOuts_eq k1 k2]; exact h8 n (hin hn)
      · intro n hn
        obtain ⟨k1, k2⟩ := kept n (hin hn).1
        exact ih n (hin hn) k1 k2 σ' hσ
      · obtain ⟨k1, k2⟩ := kept _ hmem.2
        exact z.ready_up hσ k1 k2 (fun e => hoq (e ▸ hmem.2)) h10
    · rintro rfl elems others rfl hlen ρ' hρ
      obtain ⟨rest, hio⟩ := h1
      rw [z.at'.inside] at hio
      cases hio
      let σ' : Wires W := fun n => if n = w then outWires elems else σ n
      have hσ : EqOff w σ σ' := fun n hn => by simp [σ', hn]
      have hσw : σ' w = outWires elems := by simp [σ']
      have kept : ∀ n, n ∈ h.children q → h.live n = true ∧ ¬ Goes h G q n := fun n hn =>
        ⟨(z.tree.parent_live _ _ (z.at'.kid.2 hn)).1, z.at'.kid_stays (z.at'.kid.2 hn)⟩
      refine ⟨σ', .graph (ins := fun n => if n = w then [.sum 0 elems] else ins n)
        (outs := fun n => if n = w then elems else outs n) ⟨_, z.kids_G⟩ ?_ ?_ ?_ ?_ ?_ ?_ ?_ ?_ ?_⟩
      · intro n hn
        rw [z.kids_G] at hn
        have hnw : n ≠ w := by rintro rfl; simp at hn
        rw [← hσ n hnw, ← hρ n hnw]
        refine h2 n ?_
        rw [z.at'.inside]
        intro hc; apply hn
        simp only [List.mem_cons] at hc
        simp only [List.mem_cons, List.mem_append]
        tauto
      · rw [← hσ _ (z.ne_w z.live_i)]; exact h3
      · rw [z.numOuts_eq z.live_i z.i_stays]; exact h4
      · rw [← hσ _ z.o_ne_w]; exact h5
      · intro n hn
        rcases z.inner_iff.1 hn with hn | rfl
        · obtain ⟨k1, k2⟩ := kept n hn.1
          simp only [if_neg (z.ne_w k1)]
          exact z.ready_up hσ k1 k2 hn.2.2 (h6 n hn)
        · simp only [if_pos]
          refine ⟨by rw [z.op_w, unpackOp, IsBody.numIns_ext]; rfl, fun k v hk => ?_⟩
          rcases k with _ | k
          · cases hk
            obtain ⟨l, l1, l2, l3, l4⟩ := h10.2 0 _ rfl
            have hd : ¬ Goes h G q l.dst := by rw [l2]; exact z.o_stays
            refine ⟨redirect o n row.length l, z.mem_links.2 (.inl ⟨l, l1, z.at'.src_stays l1 hd, hd, rfl⟩), ?_⟩
            rcases redirect_dst (o := o) (w := n) (len := row.length) l with ⟨e', e⟩ | ⟨e', e0, e⟩ | ⟨e', j, ej, e⟩
            · exact absurd l2 e'
            · rw [e]
              exact ⟨rfl, rfl, by rw [← hσ _ (z.ne_w (z.live_link l1).1)]; exact l4⟩
            · rw [l3] at ej; cases ej
          · simp at hk
      · intro n hn
        rcases z.inner_iff.1 hn with hn | rfl
        · have k1 := z.ne_w (kept n hn.1).1
          simp only [if_neg k1]
          rw [← hσ n k1]; exact h7 n hn
        · simp only [if_pos]; exact hσw
      · intro n hn
        rcases z.inner_iff.1 hn with hn | rfl
        · obtain ⟨k1, k2⟩ := kept n hn.1
          simp only [if_neg (z.ne_w k1)]
          rw [z.numOuts_eq k1 k2]; exact h8 n hn
        · simp only [if_pos]
          rw [z.op_w, unpackOp, IsBody.numOuts_ext]; exact hlen
      · intro n hn
        rcases z.inner_iff.1 hn with hn | rfl
        · obtain ⟨k1, k2⟩ := kept n hn.1
          simp only [if_neg (z.ne_w k1)]
          exact ih n hn k1 k2 σ' hσ
        · simp only [if_pos]
          exact .leaf (.unpackTuple z.op_w hlen)
      · have hlo : others.length = other.length := by
          have := h10.1
          rw [z.at'.opO, IsBody.numIns_output] at this
          simpa using this
        refine ⟨by rw [z.op_o, IsBody.numIns_output, z.at'.outs]; simp [hlen, hlo], fun k v hk => ?_⟩
        by_cases hlt : k < row.length
        · refine ⟨⟨w, k, o, k⟩, z.mem_links.2 (.inr ⟨k, hlt, rfl⟩), rfl, rfl, ?_⟩
          change σ' w k = some v
          rw [hσw, outWires, ← hk, List.getElem?_append_left (by omega)]
        · obtain ⟨j, rfl⟩ : ∃ j, k = row.length + j := ⟨k - row.length, by omega⟩
          rw [List.getElem?_append_right (by omega), hlen, Nat.add_sub_cancel_left] at hk
          obtain ⟨l, l1, l2, l3, l4⟩ := h10.2 (j + 1) v (by simpa using hk)
          have hd : ¬ Goes h G q l.dst := by rw [l2]; exact z.o_stays
          refine ⟨redirect o w row.length l, z.mem_links.2 (.inl ⟨l, l1, z.at'.src_stays l1 hd, hd, rfl⟩), ?_⟩
          rcases redirect_dst (o := o) (w := w) (len := row.length) l with ⟨e', e⟩ | ⟨e', e0, e⟩ | ⟨e', j', ej, e⟩
          · exact absurd l2 e'
          · rw [l3] at e0; cases e0
          · rw [l3] at ej; cases ej
            rw [e]
            exact ⟨rfl, rfl, by rw [← hσ _ (z.ne_w (z.live_link l1).1)]; exact l4⟩
  | leaf h1 => intro k1 k2 ρ' _; exact .leaf (z.leaf_up hb k1 k2 h1)
  | const h1 => intro k1 k2 ρ' _; exact .const (z.ops_up k1 k2 h1 (by simp) (by simp)).1
  | dfg h1 _ ih =>
    intro k1 k2 ρ' hρ
    obtain ⟨e, hG, _⟩ := z.ops_up k1 k2 h1 (by simp) (by simp)
    obtain ⟨σ', _, hr⟩ := ih.1 k2 hG ρ' hρ
    exact .dfg e hr
  | @cond _ _ n c _ _ _ _ _ _ _ _ h1 h2 h3 h4 _ ih =>
    intro k1 k2 ρ' hρ
    obtain ⟨e, hG, _⟩ := z.ops_up k1 k2 h1 (by simp) (by simp)
    have hc := List.mem_of_getElem? h2
    obtain ⟨σ', _, hr⟩ := ih.1 (z.child_kept k2 hG hc).2 (z.case_ne h1 hc) ρ' hρ
    exact .cond e (by rw [z.kids k1 k2 hG]; exact h2) h3 h4 hr
  | tailLoop h1 _ ih =>
    intro k1 k2 ρ' hρ
    exact .tailLoop (z.ops_up k1 k2 h1 (by simp) (by simp)).1 (ih k1 k2 ρ' hρ)
  | again h1 h2 _ _ ih1 ih2 =>
    intro k1 k2 ρ' hρ
    obtain ⟨e, hG, _⟩ := z.ops_up k1 k2 h1 (by simp) (by simp)
    obtain ⟨σ', _, hr⟩ := ih1.1 k2 hG ρ' hρ
    exact .again e h2 hr (ih2 k1 k2 ρ' hρ)
  | done h1 h2 _ ih =>
    intro k1 k2 ρ' hρ
    obtain ⟨e, hG, _⟩ := z.ops_up k1 k2 h1 (by simp) (by simp)
    obtain ⟨σ', _, hr⟩ := ih.1 k2 hG ρ' hρ
    exact .done e h2 hr
  | @cfg _ n entry _ sg _ _ h1 h2 _ ih =>
    intro k1 k2 ρ' hρ
    by_cases hG : n = G
    · subst hG
      rw [z.at'.children] at h2; cases h2
      obtain ⟨σ', hr⟩ := ih.2 rfl ρ' hρ
      exact .dfg z.op_G hr
    · have ho : n ≠ o := by rintro rfl; rw [z.at'.opO] at h1; cases h1
      obtain ⟨c1, c2⟩ := z.child_kept k2 hG (n := entry) (by rw [h2]; simp)
      exact .cfg (by rw [z.ops k1 k2 hG ho]; exact h1) (by rw [z.kids k1 k2 hG]; exact h2) (ih.1 c1 c2 ρ' hρ)
  | @jump _ _ b _ _ _ _ _ _ _ _ _ _ _ _ l h1 h2 h3 h4 h5 h6 h7 _ _ ih1 ih2 =>
    refine ⟨fun k1 k2 ρ' hρ => ?_, ?_⟩
    · obtain ⟨e, hG, _⟩ := z.ops_up k1 k2 h1 (by simp) (by simp)
      obtain ⟨σ', hσ, hr⟩ := ih1.1 k2 hG ρ' hρ
      have hd := z.flow_stays h4 (by rw [h5]; exact k2) (by rw [h5]; exact h1)
      obtain ⟨e', _, ho⟩ := z.ops_up (z.live_link h4).2 hd h7 (by simp) (by simp)
      exact .jump e h2 h3 (z.link_up h4 hd ho) h5 h6 e' hr (ih2.1 (z.live_link h4).2 hd σ' hσ)
    · rintro rfl
      have := (z.at'.succ l h4 h5).1
      rw [this, z.at'.opX] at h7; cases h7
  | @exit _ _ b tag _ _ _ _ _ _ _ _ l h1 h2 h3 h4 h5 h6 h7 _ ih =>
    refine ⟨fun k1 k2 ρ' hρ => ?_, ?_⟩
    · obtain ⟨e, hG, _⟩ := z.ops_up k1 k2 h1 (by simp) (by simp)
      obtain ⟨σ', hσ, hr⟩ := ih.1 k2 hG ρ' hρ
      have hd := z.flow_stays h4 (by rw [h5]; exact k2) (by rw [h5]; exact h1)
      obtain ⟨e', _, ho⟩ := z.ops_up (z.live_link h4).2 hd h7 (by simp) (by simp)
      exact .exit e h2 h3 (z.link_up h4 hd ho) h5 h6 e' hr
    · rintro rfl ρ' hρ
      rw [z.at'.opE] at h1; cases h1
      rcases tag with _ | tag
      · cases h2
        exact ih.2 rfl _ _ rfl h3 ρ' hρ
      · simp at h2
  | @call _ _ n f _ _ _ h1 h2 h3 _ ih =>
    intro k1 k2 ρ' _
    have hf : ¬ Goes h G E f := fun hg => z.goes_no_defn hg h2
    have hfG : f ≠ G := by
      rintro rfl
      obtain ⟨_, _, e⟩ := h2
      rw [z.at'.op] at e; cases e
    obtain ⟨σ', _, hr⟩ := ih.1 hf hfG noWires (fun _ _ => rfl)
    exact .call (z.calls_up k1 k2 h1) ((z.same_defn hb f).1 h2) (by rw [z.numOuts_eq k1 k2]; exact h3) hr

/-- What the new node does. -/
theorem unpack_runs {ρ : Wires W} {ins outs : List (Val W)} (hr : Runs g S (.node ρ w ins outs)) :
    ins = [.sum 0 outs] ∧ outs.length = row.length := (IsBody.runs_unpackTuple z.op_w).1 hr

theorem down_run (hb : ¬ IsDefn h w) {t : Task W} (hr : Runs g S t) : AsBlocks h g S G E w row.length t := by
  induction hr with
  | @graph ρ' σ' q i' o' vals res ins outs h1 h2 h3 h4 h5 h6 h7 h8 h9 h10 ih =>
    have hql : g.live q = true := by
      obtain ⟨rest, h1⟩ := h1
      by_contra hc
      have := (z.treeG.dead (by simpa using hc)).2
      change g.children q = [] at this
      rw [this] at h1; cases h1
    refine ⟨fun hG hw ρ hρ => ?_, ?_⟩
    · obtain ⟨hql, hq⟩ := (z.live_cases hql).resolve_right hw
      have kept := fun n hn => z.child_kept (n := n) hq hG hn
      have hkids := z.kids hql hq hG
      have h1' : HasIO h q i' o' := by unfold HasIO; rw [← hkids]; exact h1
      have hmem := Extra.hasIO_mem h1'
      have hoq := z.not_o hq
      let σ : Wires W := fun n => if n = w then ρ w else σ' n
      have hσ : EqOff w σ σ' := fun n hn => by simp [σ, hn]
      have hσw : σ w = ρ w := by simp [σ]
      have hin : ∀ {n}, Inner h q i' o' n → Inner g q i' o' n := fun h => ⟨by rw [hkids]; exact h.1, h.2⟩
      refine ⟨σ, hσ, .graph (ins := ins) (outs := outs) h1' ?_ ?_ ?_ ?_ ?_ ?_ ?_ ?_ ?_⟩
      · intro n hn
        by_cases hnw : n = w
        · rw [hnw, hσw]
        · rw [hσ n hnw, hρ n hnw]; exact h2 n (by rw [hkids]; exact hn)
      · rw [hσ _ (z.ne_w (kept _ hmem.1).1)]; exact h3
      · rw [← z.numOuts_eq (kept _ hmem.1).1 (kept _ hmem.1).2]; exact h4
      · rw [hσ _ (z.ne_w (kept _ hmem.2).1)]; exact h5
      · intro n hn
        obtain ⟨k1, k2⟩ := kept n hn.1
        exact z.ready_down hσ k1 k2 (fun e => hoq (e ▸ hn.1)) (h6 n (hin hn))
      · intro n hn
        rw [hσ _ (z.ne_w (kept n hn.1).1)]; exact h7 n (hin hn)
      · intro n hn
        obtain ⟨k1, k2⟩ := kept n hn.1
        rw [← z.numOuts_eq k1 k2]; exact h8 n (hin hn)
      · intro n hn
        obtain ⟨k1, k2⟩ := kept n hn.1
        exact ih n (hin hn) k1 k2 σ hσ
      · obtain ⟨k1, k2⟩ := kept _ hmem.2
        exact z.ready_down hσ k1 k2 (fun e => hoq (e ▸ hmem.2)) h10
    · rintro rfl ρ hρ
      obtain ⟨rest, hio⟩ := h1
      rw [z.kids_G] at hio
      cases hio
      have hw : Inner g q i o w := z.inner_iff.2 (.inr rfl)
      obtain ⟨hi, hlen⟩ := z.unpack_runs (h9 w hw)
      have hrw := h6 w hw
      rw [hi] at hrw
      have hσw' := h7 w hw
      generalize outs w = elems at hi hlen hrw hσw'
      have hres : res.length = row.length + other.length := by
        have := h10.1
        rw [z.op_o, IsBody.numIns_output, z.at'.outs] at this
        simpa using this
      have hk1 : ∀ k v, k < row.length → res[k]? = some v → elems[k]? = some v := by
        intro k v hk hv
        obtain ⟨l, l1, l2, l3, l4⟩ := h10.2 k v hv
        rcases z.mem_links.1 l1 with ⟨m, hm, m1, m2, rfl⟩ | ⟨r, _, rfl⟩
        · rcases redirect_dst (o := o) (w := w) (len := row.length) m with ⟨e', e⟩ | ⟨e', e0, e⟩ | ⟨e', j, ej, e⟩
          · rw [e] at l2; exact absurd l2 e'
          · rw [e] at l2; exact absurd l2.symm z.o_ne_w
          · rw [e] at l3; simp only at l3; omega
        · simp only at l3 l4
          subst l3
          rw [hσw'] at l4; exact l4
      have htake : res.take row.length = elems := by
        refine List.ext_getElem? fun k => ?_
        by_cases hk : k < row.length
        · rw [List.getElem?_take_of_lt hk, List.getElem?_eq_getElem (show k < res.length by omega)]
          exact (hk1 k _ hk (List.getElem?_eq_getElem (show k < res.length by omega))).symm
        · rw [List.getElem?_eq_none (by simp; omega), List.getElem?_eq_none (by omega)]
      let σ : Wires W := fun n => if n = w then ρ w else σ' n
      have hσ : EqOff w σ σ' := fun n hn => by simp [σ, hn]
      have hσw : σ w = ρ w := by simp [σ]
      have kept : ∀ n, n ∈ h.children E → h.live n = true ∧ ¬ Goes h q E n := fun n hn =>
        ⟨(z.tree.parent_live _ _ (z.at'.kid.2 hn)).1, z.at'.kid_stays (z.at'.kid.2 hn)⟩
      refine ⟨elems, res.drop row.length, σ, by rw [← htake, List.take_append_drop], hlen,
        .graph (ins := ins) (outs := outs) ⟨_, z.at'.inside⟩ ?_ ?_ ?_ ?_ ?_ ?_ ?_ ?_ ?_⟩
      · intro n hn
        by_cases hnw : n = w
        · rw [hnw, hσw]
        · rw [hσ n hnw, hρ n hnw]
          refine h2 n ?_
          rw [z.kids_G]
          rw [z.at'.inside] at hn
          intro hc; apply hn
          simp only [List.mem_cons, List.mem_append, List.not_mem_nil, or_false] at hc
          simp only [List.mem_cons]
          tauto
      · rw [hσ _ (z.ne_w z.live_i)]; exact h3
      · rw [← z.numOuts_eq z.live_i z.i_stays]; exact h4
      · rw [hσ _ z.o_ne_w]; exact h5
      · intro n hn
        obtain ⟨k1, k2⟩ := kept n hn.1
        exact z.ready_down hσ k1 k2 hn.2.2 (h6 n (z.inner_iff.2 (.inl hn)))
      · intro n hn
        rw [hσ n (z.ne_w (kept n hn.1).1)]; exact h7 n (z.inner_iff.2 (.inl hn))
      · intro n hn
        obtain ⟨k1, k2⟩ := kept n hn.1
        rw [← z.numOuts_eq k1 k2]; exact h8 n (z.inner_iff.2 (.inl hn))
      · intro n hn
        obtain ⟨k1, k2⟩ := kept n hn.1
        exact ih n (z.inner_iff.2 (.inl hn)) k1 k2 σ hσ
      · refine ⟨by rw [z.at'.opO, IsBody.numIns_output]; simp [hres], fun k v hk => ?_⟩
        rcases k with _ | j
        · cases hk
          obtain ⟨l, l1, l2, l3, l4⟩ := hrw.2 0 _ rfl
          rcases z.mem_links.1 l1 with ⟨m, hm, m1, m2, rfl⟩ | ⟨r, _, rfl⟩
          · rcases redirect_dst (o := o) (w := w) (len := row.length) m with ⟨e', e⟩ | ⟨e', e0, e⟩ | ⟨e', j, ej, e⟩
            · rw [e] at l2; exact absurd l2 (z.ne_w (z.live_link hm).2)
            · rw [e] at l4
              exact ⟨m, hm, e', e0, by rw [hσ _ (z.ne_w (z.live_link hm).1)]; exact l4⟩
            · rw [e] at l2; exact absurd l2 z.o_ne_w
          · exact absurd l2 z.o_ne_w
        · rw [List.getElem?_cons_succ, List.getElem?_drop] at hk
          obtain ⟨l, l1, l2, l3, l4⟩ := h10.2 _ v hk
          rcases z.mem_links.1 l1 with ⟨m, hm, m1, m2, rfl⟩ | ⟨r, hr, rfl⟩
          · rcases redirect_dst (o := o) (w := w) (len := row.length) m with ⟨e', e⟩ | ⟨e', e0, e⟩ | ⟨e', j', ej, e⟩
            · rw [e] at l2; exact absurd l2 e'
            · rw [e] at l2; exact absurd l2.symm z.o_ne_w
            · rw [e] at l3 l4
              simp only at l3
              exact ⟨m, hm, e', by omega, by rw [hσ _ (z.ne_w (z.live_link hm).1)]; exact l4⟩
          · simp only at l3; omega
  | leaf h1 => intro k1 k2 ρ' _; exact .leaf (z.leaf_down hb k1 k2 h1)
  | const h1 => intro k1 k2 ρ' _; exact .const (z.ops_down k1 k2 h1 (by simp) (by simp)).1
  | @dfg _ _ n _ _ _ h1 _ ih =>
    intro k1 k2 ρ hρ
    by_cases hG : n = G
    · subst hG
      obtain ⟨elems, others, σ, rfl, hlen, hr⟩ := ih.2 rfl ρ hρ
      obtain ⟨l, hl, hs⟩ := z.at'.link
      obtain ⟨hd, hp⟩ := z.at'.succ l hl hs
      exact .cfg z.at'.op z.at'.children (.exit z.at'.opE rfl hlen hl hs hp (by rw [hd]; exact z.at'.opX) hr)
    · have ho : n ≠ o := by rintro rfl; rw [z.op_o] at h1; cases h1
      obtain ⟨σ', _, hr⟩ := ih.1 hG (z.ne_w k1) ρ hρ
      exact .dfg (by rw [← z.ops k1 k2 hG ho]; exact h1) hr
  | @cond _ _ n c _ _ _ _ _ _ _ _ h1 h2 h3 h4 _ ih =>
    intro k1 k2 ρ hρ
    obtain ⟨e, hG, _⟩ := z.ops_down k1 k2 h1 (by simp) (by simp)
    rw [z.kids k1 k2 hG] at h2
    have hc := List.mem_of_getElem? h2
    obtain ⟨σ', _, hr⟩ := ih.1 (z.case_ne e hc) (z.ne_w (z.child_kept k2 hG hc).1) ρ hρ
    exact .cond e h2 h3 h4 hr
  | tailLoop h1 _ ih =>
    intro k1 k2 ρ hρ
    exact .tailLoop (z.ops_down k1 k2 h1 (by simp) (by simp)).1 (ih k1 k2 ρ hρ)
  | again h1 h2 _ _ ih1 ih2 =>
    intro k1 k2 ρ hρ
    obtain ⟨e, hG, _⟩ := z.ops_down k1 k2 h1 (by simp) (by simp)
    obtain ⟨σ', _, hr⟩ := ih1.1 hG (z.ne_w k1) ρ hρ
    exact .again e h2 hr (ih2 k1 k2 ρ hρ)
  | done h1 h2 _ ih =>
    intro k1 k2 ρ hρ
    obtain ⟨e, hG, _⟩ := z.ops_down k1 k2 h1 (by simp) (by simp)
    obtain ⟨σ', _, hr⟩ := ih.1 hG (z.ne_w k1) ρ hρ
    exact .done e h2 hr
  | @cfg _ n entry _ sg _ _ h1 h2 _ ih =>
    intro k1 k2 ρ hρ
    obtain ⟨e, hG, _⟩ := z.ops_down k1 k2 h1 (by simp) (by simp)
    rw [z.kids k1 k2 hG] at h2
    obtain ⟨c1, c2⟩ := z.child_kept k2 hG (n := entry) (by rw [h2]; simp)
    exact .cfg e h2 (ih c1 c2 ρ hρ)
  | @jump _ _ b _ _ _ _ _ _ _ _ _ _ _ _ l h1 h2 h3 h4 h5 h6 h7 _ _ ih1 ih2 =>
    intro k1 k2 ρ hρ
    obtain ⟨e, hG, _⟩ := z.ops_down k1 k2 h1 (by simp) (by simp)
    obtain ⟨σ, hσ, hr⟩ := ih1.1 hG (z.ne_w k1) ρ hρ
    have hdw : l.dst ≠ w := by intro e'; rw [e', z.op_w] at h7; cases h7
    have hdo : l.dst ≠ o := by intro e'; rw [e', z.op_o] at h7; cases h7
    obtain ⟨m1, m2, m3⟩ := z.link_down h4 hdw hdo
    have hd := (z.live_link m1).2
    exact .jump e h2 h3 m1 h5 h6 (z.ops_down hd m3 h7 (by simp) (by simp)).1 hr (ih2 hd m3 σ hσ)
  | @exit _ _ b tag _ _ _ _ _ _ _ _ l h1 h2 h3 h4 h5 h6 h7 _ ih =>
    intro k1 k2 ρ hρ
    obtain ⟨e, hG, _⟩ := z.ops_down k1 k2 h1 (by simp) (by simp)
    obtain ⟨σ, hσ, hr⟩ := ih.1 hG (z.ne_w k1) ρ hρ
    have hdw : l.dst ≠ w := by intro e'; rw [e', z.op_w] at h7; cases h7
    have hdo : l.dst ≠ o := by intro e'; rw [e', z.op_o] at h7; cases h7
    obtain ⟨m1, m2, m3⟩ := z.link_down h4 hdw hdo
    exact .exit e h2 h3 m1 h5 h6 (z.ops_down (z.live_link m1).2 m3 h7 (by simp) (by simp)).1 hr
  | @call _ _ n f _ _ _ h1 h2 h3 _ ih =>
    intro k1 k2 ρ _
    have hf := (z.same_defn hb f).2 h2
    have hfG : f ≠ G := by
      rintro rfl
      obtain ⟨_, _, e⟩ := h2
      rw [z.op_G] at e; cases e
    obtain ⟨σ', _, hr⟩ := ih.1 hfG (by rintro rfl; exact hb hf) noWires (fun _ _ => rfl)
    exact .call (z.calls_down k1 k2 h1) hf (by rw [← z.numOuts_eq k1 k2]; exact h3) hr

theorem returns (hb : ¬ IsDefn h w) {f : Nat} {args outs : List (Val W)} :
    Returns h S f args outs ↔ Returns g S f args outs := by
  constructor
  · rintro ⟨h1, σ, hr⟩
    have hfG : f ≠ G := by
      rintro rfl
      obtain ⟨_, _, e⟩ := h1
      rw [z.at'.op] at e; cases e
    obtain ⟨σ', _, hr'⟩ := (z.up_run hb hr).1 (fun hg => z.goes_no_defn hg h1) hfG noWires (fun _ _ => rfl)
    exact ⟨(z.same_defn hb f).1 h1, σ', hr'⟩
  · rintro ⟨h1, σ, hr⟩
    have h1' := (z.same_defn hb f).2 h1
    have hfG : f ≠ G := by
      rintro rfl
      obtain ⟨_, _, e⟩ := h1'
      rw [z.at'.op] at e; cases e
    obtain ⟨σ', _, hr'⟩ := (z.down_run hb hr).1 hfG (by rintro rfl; exact hb h1') noWires (fun _ _ => rfl)
    exact ⟨h1', σ', hr'⟩

end BecomesDfg

end Verif.Patch
