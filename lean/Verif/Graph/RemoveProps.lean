import Verif.Graph.TreeProps

/-!
# C22: removing nodes and subtrees

Sources: `/repo/hugr-core/src/hugr/hugrmut.rs` (`remove_node`, `remove_subtree`).
-/
namespace Verif.Graph

variable {Op Meta : Type}

/-- Number of live nodes. -/
def Hugr.liveCount (h : Hugr Op Meta) : Nat := h.nodes.length

theorem filter_upd_length {l : List Nat} (hl : l.Nodup) (live : Nat → Bool) {q : Nat} (hq : q ∈ l)
    (hlq : live q = true) :
    (l.filter (upd live q false)).length + 1 = (l.filter live).length := by
  have h1 : l.filter (upd live q false) = (l.filter live).erase q := by
    rw [(hl.filter live).erase_eq_filter, List.filter_filter]
    apply List.filter_congr
    intro x _
    by_cases hx : x = q
    · subst hx; simp [upd]
    · simp [upd, hx]
  have hmem : q ∈ l.filter live := List.mem_filter.2 ⟨hq, hlq⟩
  rw [h1, List.length_erase_of_mem hmem]
  have := List.length_pos_of_mem hmem
  omega

/-- State of the loop of `remove_subtree(n)` started in `h`: the nodes outside the subtree are as
before; those inside are dead, or in the queue and detached, or still below a live parent. -/
structure RInv (I : OpInfo Op) (h : Hugr Op Meta) (n : Nat) (g : Hugr Op Meta) (Q : List Nat) :
    Prop where
  outside : ∀ m, ¬ Above h.hier.parent m n → g.live m = h.live m ∧
    g.hier.parent m = h.hier.parent m ∧ g.hier.children m = (h.hier.children m).erase n
  dead : ∀ m, Above h.hier.parent m n → g.live m = false → g.hier.parent m = none ∧
    g.hier.children m = [] ∧ (m = n ∨ ∃ p, h.hier.parent m = some p ∧ g.live p = false)
  alive : ∀ m, Above h.hier.parent m n → g.live m = true → g.hier.children m = h.hier.children m ∧
    ((m ∈ Q ∧ g.hier.parent m = none ∧ (m = n ∨ ∃ p, h.hier.parent m = some p ∧ g.live p = false)) ∨
     (m ∉ Q ∧ m ≠ n ∧ g.hier.parent m = h.hier.parent m ∧
      ∃ p, h.hier.parent m = some p ∧ g.live p = true))
  nodup : Q.Nodup
  queue : ∀ q ∈ Q, Above h.hier.parent q n ∧ g.live q = true
  links : g.links = h.links.filter fun l => g.live l.src && g.live l.dst
  ops : ∀ m, g.ops m = if h.live m && !g.live m then I.default else h.ops m
  entry : g.entrypoint = h.entrypoint
  entry_live : g.live g.entrypoint = true
  rest : g.cap = h.cap ∧ g.ins = h.ins ∧ g.outs = h.outs ∧ g.moduleRoot = h.moduleRoot ∧
    g.metadata = h.metadata

theorem rinv_init (I : OpInfo Op) {h : Hugr Op Meta} (ht : IsTree h) (hl : LinksOk h) {n : Nat}
    (hn : h.live n = true) : RInv I h n { h with hier := h.hier.detach n } [n] := by
  have hac := ht.acyclic
  refine ⟨?_, ?_, ?_, by simp, ?_, ?_, ?_, rfl, ht.entry_live, ⟨rfl, rfl, rfl, rfl, rfl⟩⟩
  · intro m hm
    have hmn : m ≠ n := fun e => hm (e ▸ .refl _)
    exact ⟨rfl, by simp only [detach_parent]; exact upd_ne _ _ hmn, detach_children ht.ok n m⟩
  · intro m hm hd
    simp only [] at hd
    have := hm.eq_of_top (ht.dead hd).1
    subst this
    rw [hn] at hd; cases hd
  · intro m hm hlm
    refine ⟨?_, ?_⟩
    · simp only [detach_children ht.ok]
      rw [List.erase_of_not_mem]
      rw [ht.child_iff]
      exact fun hp => hac n m hp hm
    · by_cases hmn : m = n
      · subst hmn
        exact Or.inl ⟨by simp, by simp only [detach_parent]; exact upd_same .., Or.inl rfl⟩
      · refine Or.inr ⟨by simpa using hmn, hmn, by simp only [detach_parent]; exact upd_ne _ _ hmn, ?_⟩
        cases hm with
        | refl => exact absurd rfl hmn
        | step hp _ => exact ⟨_, hp, (ht.parent_live _ _ hp).2⟩
  · intro q hq
    simp only [List.mem_singleton] at hq
    subst hq
    exact ⟨.refl _, hn⟩
  · simp only []
    symm
    rw [List.filter_eq_self]
    intro l hll
    obtain ⟨h1, _, h2, _⟩ := hl l hll
    simp [h1, h2]
  · intro m; cases hm : h.live m <;> simp [hm]

theorem rinv_step (I : OpInfo Op) {h g g1 : Hugr Op Meta} (ht : IsTree h) {n q : Nat} {Q : List Nat}
    (hn : h.live n = true) (hi : RInv I h n g (q :: Q)) (hr : g.removeNode I q = some g1) :
    RInv I h n g1 (Q ++ g.children q) := by
  have hac := ht.acyclic
  obtain ⟨hqn, hql⟩ := hi.queue q (by simp)
  obtain ⟨hqc, hq2⟩ := hi.alive q hqn hql
  have hqtop : g.hier.parent q = none ∧ (q = n ∨ ∃ p, h.hier.parent q = some p ∧ g.live p = false) := by
    rcases hq2 with h1 | h1
    · exact h1.2
    · exact absurd (by simp) h1.1
  unfold Hugr.removeNode at hr
  split at hr
  case isFalse => cases hr
  case isTrue hv =>
    simp only [Option.some.injEq] at hr
    have hrem : g.hier.remove q =
        ⟨fun i => if i ∈ h.hier.children q then none else g.hier.parent i,
          upd g.hier.children q []⟩ := by
      unfold Hier.remove Hier.detach
      rw [hqtop.1]
      simp only [hqc]
    rw [hrem] at hr
    have hv2 : q ≠ g.entrypoint := by
      unfold Hugr.validNonEntrypoint at hv
      simp only [Bool.and_eq_true, bne_iff_ne] at hv
      exact hv.2
    have hchild : g.children q = h.hier.children q := hqc
    rw [hchild]
    have hin : ∀ m, m ∈ h.hier.children q → Above h.hier.parent m n := fun m hm =>
      .step ((ht.child_iff q m).1 hm) hqn
    have hqq : q ∉ h.hier.children q := by
      rw [ht.child_iff]; exact fun hp => hac q q hp (.refl _)
    subst hr
    constructor
    · intro m hm
      obtain ⟨h1, h2, h3⟩ := hi.outside m hm
      have hmq : m ≠ q := fun e => hm (e ▸ hqn)
      have hmc : m ∉ h.hier.children q := fun hc => hm (hin m hc)
      simp only [upd_ne _ _ hmq, hmc, if_false]
      exact ⟨h1, h2, h3⟩
    · intro m hm hd
      simp only [] at hd ⊢
      by_cases hmq : m = q
      · subst hmq
        simp only [hqq, if_false, upd_same, hqtop.1, true_and]
        refine hqtop.2.imp id ?_
        rintro ⟨p, hp, hpl⟩
        refine ⟨p, hp, ?_⟩
        unfold upd; split
        · rfl
        · exact hpl
      · rw [upd_ne _ _ hmq] at hd
        obtain ⟨h1, h2, h3⟩ := hi.dead m hm hd
        refine ⟨by rw [h1]; simp, by rw [upd_ne _ _ hmq]; exact h2, h3.imp id ?_⟩
        rintro ⟨p, hp, hpl⟩
        refine ⟨p, hp, ?_⟩
        unfold upd; split
        · rfl
        · exact hpl
    · intro m hm hlm
      simp only [] at hlm ⊢
      have hmq : m ≠ q := fun e => by rw [e, upd_same] at hlm; cases hlm
      rw [upd_ne _ _ hmq] at hlm ⊢
      obtain ⟨h1, h2⟩ := hi.alive m hm hlm
      refine ⟨h1, ?_⟩
      rcases h2 with ⟨h2, h3, h4⟩ | ⟨h2, h3, h4, p, h5, h6⟩
      · left
        have hmQ : m ∈ Q := by
          rcases List.mem_cons.1 h2 with e | e
          · exact absurd e hmq
          · exact e
        refine ⟨by simp [hmQ], by rw [h3]; simp, h4.imp id ?_⟩
        rintro ⟨p, hp, hpl⟩
        refine ⟨p, hp, ?_⟩
        unfold upd; split
        · rfl
        · exact hpl
      · by_cases hpq : p = q
        · subst hpq
          have hmc : m ∈ h.hier.children p := (ht.child_iff p m).2 h5
          left
          refine ⟨by simp [hmc], by simp [hmc], Or.inr ⟨p, h5, upd_same ..⟩⟩
        · right
          have hmc : m ∉ h.hier.children q := by
            rw [ht.child_iff, h5]; simp only [Option.some.injEq]; exact hpq
          simp only [List.mem_cons, not_or] at h2
          refine ⟨by simp [h2.2, hmc], h3, by simp [hmc, h4], p, h5, ?_⟩
          rw [upd_ne _ _ hpq]; exact h6
    · have hnd := List.nodup_cons.1 hi.nodup
      rw [List.nodup_append]
      refine ⟨hnd.2, ht.child_once q, ?_⟩
      rintro a ha b hb rfl
      have hp := (ht.child_iff q a).1 hb
      obtain ⟨han, hal⟩ := hi.queue a (by simp [ha])
      rcases (hi.alive a han hal).2 with ⟨_, _, rfl | ⟨p, hp', hpl⟩⟩ | ⟨h2, _⟩
      · exact hac _ _ hp hqn
      · rw [hp] at hp'; cases hp'
        rw [hql] at hpl; cases hpl
      · exact h2 (by simp [ha])
    · intro m hm
      simp only []
      rcases List.mem_append.1 hm with hm | hm
      · obtain ⟨h1, h2⟩ := hi.queue m (by simp [hm])
        have hmq : m ≠ q := fun e => (List.nodup_cons.1 hi.nodup).1 (e ▸ hm)
        exact ⟨h1, by rw [upd_ne _ _ hmq]; exact h2⟩
      · have hmq : m ≠ q := fun e => hqq (e ▸ hm)
        refine ⟨hin m hm, ?_⟩
        rw [upd_ne _ _ hmq]
        have hp := (ht.child_iff q m).1 hm
        cases hml : g.live m with
        | true => rfl
        | false =>
          rcases (hi.dead m (hin m hm) hml).2.2 with rfl | ⟨p, hp', hpl⟩
          · exact absurd hqn (hac _ _ hp)
          · rw [hp] at hp'; cases hp'
            rw [hql] at hpl; cases hpl
    · simp only [hi.links, List.filter_filter]
      apply List.filter_congr
      intro l _
      by_cases h1 : l.src = q
      · simp [h1, upd_same]
      · by_cases h2 : l.dst = q
        · simp [h2, upd_same]
        · simp [h1, h2, upd_ne]
    · intro m
      simp only []
      by_cases hmq : m = q
      · subst hmq
        have : h.live m = true := by
          cases hm : h.live m with
          | true => rfl
          | false =>
            have hmn := hqn.eq_of_top (ht.dead hm).1
            rw [← hmn, hm] at hn; cases hn
        simp [upd_same, this]
      · simp only [upd_ne _ _ hmq]; exact hi.ops m
    · exact hi.entry
    · simp only []
      rw [upd_ne _ _ (Ne.symm hv2)]; exact hi.entry_live
    · exact hi.rest

theorem removeQueue_spec (I : OpInfo Op) {h : Hugr Op Meta} (ht : IsTree h) {n : Nat}
    (hn : h.live n = true) (fuel : Nat) (g : Hugr Op Meta) (Q : List Nat) (hi : RInv I h n g Q)
    (hf : g.liveCount < fuel) :
    (∃ g', g.removeQueue I fuel Q = some g' ∧ RInv I h n g' []) ∨
    (g.removeQueue I fuel Q = none ∧ Above h.hier.parent h.entrypoint n) := by
  induction fuel generalizing g Q with
  | zero => omega
  | succ fuel ih =>
    cases Q with
    | nil => exact Or.inl ⟨g, rfl, hi⟩
    | cons q Q =>
      obtain ⟨hqn, hql⟩ := hi.queue q (by simp)
      simp only [Hugr.removeQueue]
      cases hr : g.removeNode I q with
      | none =>
        right
        refine ⟨rfl, ?_⟩
        unfold Hugr.removeNode Hugr.validNonEntrypoint at hr
        simp only [hql, Bool.true_and, bne_iff_ne, ite_eq_right_iff] at hr
        have : q = g.entrypoint := by
          by_contra hne
          exact absurd (hr hne) (by simp)
        rw [← hi.entry, ← this]; exact hqn
      | some g1 =>
        simp only []
        have hi1 := rinv_step I ht hn hi hr
        refine ih g1 _ hi1 ?_
        have hqcap : q < h.cap := by
          have : h.live q = true := by
            cases hm : h.live q with
            | true => rfl
            | false =>
              have hmn := hqn.eq_of_top (ht.dead hm).1
              rw [← hmn, hm] at hn; cases hn
          exact ht.in_range q this
        unfold Hugr.removeNode at hr
        split at hr
        case isFalse => cases hr
        case isTrue =>
          simp only [Option.some.injEq] at hr
          subst hr
          have := filter_upd_length (List.nodup_range (n := g.cap)) g.live
            (List.mem_range.2 (by rw [hi.rest.1]; exact hqcap)) hql
          simp only [Hugr.liveCount, Hugr.nodes] at hf ⊢
          omega

/-- When the queue is empty the whole subtree is dead. -/
theorem rinv_final {I : OpInfo Op} {h g : Hugr Op Meta} {n m : Nat} (hi : RInv I h n g [])
    (hm : Above h.hier.parent m n) : g.live m = false := by
  have key : ∀ a b, Above h.hier.parent a b → b = n → g.live a = false := by
    intro a b hab
    induction hab with
    | refl a =>
      rintro rfl
      cases hl : g.live a with
      | false => rfl
      | true =>
        rcases (hi.alive a (.refl _) hl).2 with h1 | h1
        · simp at h1
        · exact absurd rfl h1.2.1
    | @step a p b hp hpb ih =>
      rintro rfl
      cases hl : g.live a with
      | false => rfl
      | true =>
        rcases (hi.alive a (.step hp hpb) hl).2 with h1 | ⟨_, _, _, p', hp', hpl⟩
        · simp at h1
        · rw [hp] at hp'; cases hp'
          rw [ih rfl] at hpl; cases hpl
  exact key m n hm rfl

/-- What is left of a Hugr when the subtree of `n` is taken away: the surviving nodes keep their
operation, parent, children (without `n`), ports and metadata, and exactly the links between them
survive. -/
structure WithoutSubtree (h : Hugr Op Meta) (n : Nat) (g : Hugr Op Meta) : Prop where
  live : ∀ m, g.live m = true ↔ h.live m = true ∧ ¬ Above h.hier.parent m n
  parent : ∀ m, g.live m = true → g.hier.parent m = h.hier.parent m
  children : ∀ m, g.live m = true →
    g.hier.children m = (h.hier.children m).filter fun c => c ≠ n
  ops : ∀ m, g.live m = true → g.ops m = h.ops m
  ports : ∀ m, g.live m = true → g.ins m = h.ins m ∧ g.outs m = h.outs m
  metadata : ∀ m, g.live m = true → g.metadata m = h.metadata m
  links : g.links = h.links.filter fun l => g.live l.src && g.live l.dst
  roots : g.moduleRoot = h.moduleRoot ∧ g.entrypoint = h.entrypoint

theorem removeSubtree_full (I : OpInfo Op) {h : Hugr Op Meta} (ht : IsTree h) (hl : LinksOk h)
    (n : Nat) :
    (∃ g, h.removeSubtree I n = some g ∧ RInv I h n g [] ∧ h.live n = true ∧
      ¬ Above h.hier.parent h.entrypoint n) ∨
    (h.removeSubtree I n = none ∧ (h.live n = false ∨ Above h.hier.parent h.entrypoint n)) := by
  unfold Hugr.removeSubtree Hugr.validNonEntrypoint
  by_cases hv : h.live n = true ∧ n ≠ h.entrypoint
  · rw [if_pos (by simpa using hv)]
    -- the first round starts by detaching the node
    have hac := ht.acyclic
    have hsame : h.removeQueue I (h.cap + 1) [n] =
        ({ h with hier := h.hier.detach n } : Hugr Op Meta).removeQueue I (h.cap + 1) [n] := by
      have hcn : n ∉ h.hier.children n := by
        rw [ht.child_iff]; exact fun hp => hac n n hp (.refl _)
      have h1 : ({ h with hier := h.hier.detach n } : Hugr Op Meta).removeNode I n =
          h.removeNode I n := by
        unfold Hugr.removeNode
        have : (h.hier.detach n).remove n = h.hier.remove n := by
          unfold Hier.remove
          have hdd : (h.hier.detach n).detach n = h.hier.detach n := by
            have : (h.hier.detach n).parent n = none := by rw [detach_parent, upd_same]
            generalize h.hier.detach n = d at this
            unfold Hier.detach; rw [this]
          rw [hdd]
        simp only [this, Hugr.validNonEntrypoint]
        rfl
      have h2 : ({ h with hier := h.hier.detach n } : Hugr Op Meta).children n = h.children n := by
        simp only [Hugr.children, detach_children ht.ok, List.erase_of_not_mem hcn]
      simp only [Hugr.removeQueue, h1, h2]
    rw [hsame]
    have hcnt : ({ h with hier := h.hier.detach n } : Hugr Op Meta).liveCount < h.cap + 1 := by
      simp only [Hugr.liveCount, Hugr.nodes]
      have := List.length_filter_le h.live (List.range h.cap)
      simp only [List.length_range] at this
      omega
    rcases removeQueue_spec I ht hv.1 (h.cap + 1) _ [n] (rinv_init I ht hl hv.1) hcnt with
      ⟨g, h1, h2⟩ | ⟨h1, h2⟩
    · left
      refine ⟨g, h1, h2, hv.1, ?_⟩
      intro ha
      have := rinv_final h2 ha
      rw [← h2.entry, h2.entry_live] at this; cases this
    · exact Or.inr ⟨h1, Or.inr h2⟩
  · rw [if_neg (by simpa using hv)]
    right
    refine ⟨rfl, ?_⟩
    by_cases hl : h.live n = true
    · right
      have : n = h.entrypoint := by
        by_contra hne; exact hv ⟨hl, hne⟩
      rw [this]; exact .refl _
    · left; simpa using hl

theorem rinv_without {I : OpInfo Op} {h g : Hugr Op Meta} (ht : IsTree h) {n : Nat}
    (hi : RInv I h n g []) : WithoutSubtree h n g := by
  have hlive : ∀ m, g.live m = true ↔ h.live m = true ∧ ¬ Above h.hier.parent m n := by
    intro m
    constructor
    · intro hm
      have : ¬ Above h.hier.parent m n := fun ha => by
        rw [rinv_final hi ha] at hm; cases hm
      exact ⟨by rw [← (hi.outside m this).1]; exact hm, this⟩
    · rintro ⟨h1, h2⟩
      rw [(hi.outside m h2).1]; exact h1
  refine ⟨hlive, ?_, ?_, ?_, ?_, ?_, hi.links, hi.rest.2.2.2.1, hi.entry⟩
  · intro m hm; exact (hi.outside m ((hlive m).1 hm).2).2.1
  · intro m hm
    rw [(hi.outside m ((hlive m).1 hm).2).2.2, (ht.child_once m).erase_eq_filter]
    apply List.filter_congr
    intro x _
    by_cases hx : x = n <;> simp [hx]
  · intro m hm; rw [hi.ops m, hm]; simp
  · intro m _; rw [hi.rest.2.1, hi.rest.2.2.1]; exact ⟨rfl, rfl⟩
  · intro m _; rw [hi.rest.2.2.2.2]

theorem rinv_tree {I : OpInfo Op} {h g : Hugr Op Meta} (ht : IsTree h) {n : Nat}
    (hr : n ≠ h.moduleRoot) (hi : RInv I h n g []) : IsTree g := by
  have hw := rinv_without ht hi
  have hroot : ¬ Above h.hier.parent h.moduleRoot n := fun ha =>
    hr (ha.eq_of_top ht.root_top).symm
  have hdead : ∀ m, g.live m = false → g.hier.parent m = none ∧ g.hier.children m = [] := by
    intro m hm
    by_cases ha : Above h.hier.parent m n
    · have := hi.dead m ha hm; exact ⟨this.1, this.2.1⟩
    · obtain ⟨h1, h2, h3⟩ := hi.outside m ha
      rw [hm] at h1
      have := ht.dead h1.symm
      rw [h2, h3, this.1, this.2]; simp
  have hpar : ∀ m p, g.hier.parent m = some p → g.live m = true ∧ h.hier.parent m = some p := by
    intro m p hp
    cases hm : g.live m with
    | false => rw [(hdead m hm).1] at hp; cases hp
    | true => rw [hw.parent m hm] at hp; exact ⟨rfl, hp⟩
  have hplive : ∀ m p, g.live m = true → h.hier.parent m = some p → g.live p = true := by
    intro m p hm hp
    rw [hw.live]
    exact ⟨(ht.parent_live m p hp).2, fun ha => ((hw.live m).1 hm).2 (.step hp ha)⟩
  refine ⟨?_, ?_, ?_, ?_, ?_, ?_, ?_, ?_, ?_⟩
  · rw [hw.roots.1, hw.live]; exact ⟨ht.root_live, hroot⟩
  · exact hi.entry_live
  · rw [hw.roots.1, (hi.outside _ hroot).2.1]; exact ht.root_top
  · intro m hm hne
    rw [hw.parent m hm]
    exact ht.has_parent m ((hw.live m).1 hm).1 (by rw [← hw.roots.1]; exact hne)
  · intro m p hp
    obtain ⟨h1, h2⟩ := hpar m p hp
    exact ⟨h1, hplive m p h1 h2⟩
  · intro p m
    cases hp : g.live p with
    | false =>
      rw [(hdead p hp).2]
      constructor
      · intro h; simp at h
      · intro h
        obtain ⟨h1, h2⟩ := hpar m p h
        rw [hplive m p h1 h2] at hp; cases hp
    | true =>
      rw [hw.children p hp]
      simp only [List.mem_filter, ht.child_iff, decide_eq_true_eq]
      constructor
      · rintro ⟨h1, h2⟩
        have hm : g.live m = true := by
          rw [hw.live]
          refine ⟨(ht.parent_live m p h1).1, fun ha => ?_⟩
          cases ha with
          | refl => exact h2 rfl
          | step hp' ha =>
            rw [h1] at hp'; cases hp'
            exact ((hw.live p).1 hp).2 ha
        rw [hw.parent m hm]; exact h1
      · intro h
        obtain ⟨h1, h2⟩ := hpar m p h
        refine ⟨h2, ?_⟩
        rintro rfl
        exact ((hw.live m).1 h1).2 (.refl _)
  · intro p
    cases hp : g.live p with
    | false => rw [(hdead p hp).2]; simp
    | true => rw [hw.children p hp]; exact (ht.child_once p).filter _
  · intro m hm
    have := ht.reaches_root m ((hw.live m).1 hm).1
    rw [hw.roots.1]
    generalize h.moduleRoot = r at this
    clear hpar hdead
    revert hm
    induction this with
    | refl => intro _; exact .refl _
    | step hp _ ih =>
      intro hm
      exact .step (by rw [hw.parent _ hm]; exact hp) (ih (hplive _ _ hm hp))
  · intro m hm
    rw [hi.rest.1]; exact ht.in_range m ((hw.live m).1 hm).1

/-- Removing a node without children is removing its subtree. -/
theorem removeNode_leaf_tree {I : OpInfo Op} {h g : Hugr Op Meta} (ht : IsTree h) (hl : LinksOk h)
    {n : Nat} (hr : n ≠ h.moduleRoot) (hleaf : ∀ m, h.hier.parent m ≠ some n)
    (hs : h.removeNode I n = some g) : IsTree g ∧ RInv I h n g [] := by
  have hc : h.children n = [] := by
    cases hc : h.children n with
    | nil => rfl
    | cons x xs =>
      have : x ∈ h.hier.children n := by
        have : x ∈ h.children n := by rw [hc]; simp
        exact this
      exact absurd ((ht.child_iff n x).1 this) (hleaf x)
  have hv : h.validNonEntrypoint n = true := by
    unfold Hugr.removeNode at hs
    split at hs
    · assumption
    · cases hs
  have : h.removeSubtree I n = some g := by
    unfold Hugr.removeSubtree
    rw [if_pos hv]
    simp only [Hugr.removeQueue, hs, hc, List.append_nil]
  rcases removeSubtree_full I ht hl n with ⟨g', h1, h2, _⟩ | ⟨h1, _⟩
  · rw [this] at h1
    cases h1
    exact ⟨rinv_tree ht hr h2, h2⟩
  · rw [this] at h1; cases h1

end Verif.Graph
