import Verif.Patch.ReplaceApplySpec
import Verif.Patch.ReplacementLemmas
import Verif.Graph.LinkingPrune
import Verif.Graph.LinkingProps

/-!
# Lemmas on moving and removing nodes when a replacement is applied
-/
namespace Verif.Patch

open Verif.Graph Verif.Ops Verif.Passes Verif.Validate Verif.Dataflow

variable {Meta : Type} {g : Hugr Ops.Op Meta}

/-! ## Moving nodes -/

/-- Only the hierarchy changes, to one in which the parents are these. -/
structure Rehung (g : Hugr Ops.Op Meta) (par : Nat → Option Nat) (g' : Hugr Ops.Op Meta) : Prop where
  tree : IsTree g'
  rest : g' = { g with hier := g'.hier }
  parent : ∀ x, g'.hier.parent x = par x

theorem Rehung.trans {par par' : Nat → Option Nat} {g1 g2 : Hugr Ops.Op Meta} (a : Rehung g par g1)
    (b : Rehung g1 par' g2) : Rehung g par' g2 := by
  refine ⟨b.tree, ?_, b.parent⟩
  rw [b.rest]
  conv_lhs => rw [a.rest]

theorem Rehung.live {par : Nat → Option Nat} {g1 : Hugr Ops.Op Meta} (a : Rehung g par g1) : g1.live = g.live := by
  rw [a.rest]

theorem Rehung.entry {par : Nat → Option Nat} {g1 : Hugr Ops.Op Meta} (a : Rehung g par g1) :
    g1.entrypoint = g.entrypoint := by
  rw [a.rest]

/-- A set of nodes that has the parents of its nodes. -/
def Upward (par : Nat → Option Nat) (A : Nat → Prop) : Prop := ∀ x q, A x → par x = some q → A q

theorem Upward.not_above {par : Nat → Option Nat} {A : Nat → Prop} (hA : Upward par A) {a b : Nat} (ha : A a) (hb : ¬ A b) :
    ¬ Above par a b := fun h => hb (above_closed hA ha h)

theorem setParent_one (ht : IsTree g) {A : Nat → Prop} (hA : Upward g.hier.parent A) {n q : Nat} (hn : g.live n = true)
    (hq : g.live q = true) (an : ¬ A n) (aq : A q) :
    ∃ g', g.setParent n q = some g' ∧ Rehung g (fun x => if x = n then some q else g.hier.parent x) g' ∧
      Upward g'.hier.parent A := by
  obtain ⟨g', hg⟩ := (C20_set_parent g ht n q).1.2 ⟨hn, hq, hA.not_above aq an⟩
  obtain ⟨t, m⟩ := (C20_set_parent g ht n q).2 g' hg
  refine ⟨g', hg, ⟨t, m.rest, m.parent⟩, fun x y hx hxy => ?_⟩
  rw [m.parent, if_neg (show ¬ x = n from fun e => an (e ▸ hx))] at hxy
  exact hA x y hx hxy

theorem moveBefore_one (ht : IsTree g) {A : Nat → Prop} (hA : Upward g.hier.parent A) {n s q : Nat} (hn : g.live n = true)
    (hs : g.hier.parent s = some q) (en : n ≠ g.entrypoint) (es : s ≠ g.entrypoint) (ns : n ≠ s) (an : ¬ A n) (aq : A q) :
    ∃ g', g.moveBeforeSibling n s = some g' ∧ Rehung g (fun x => if x = n then some q else g.hier.parent x) g' ∧
      Upward g'.hier.parent A := by
  obtain ⟨g', hg⟩ := (C20_move_before g ht n s).1.2
    ⟨hn, en, (ht.parent_live s q hs).1, es, ns, q, hs, hA.not_above aq an⟩
  obtain ⟨t, q', _, _, hq', _, m⟩ := (C20_move_before g ht n s).2 g' hg
  rw [hs] at hq'
  cases hq'
  refine ⟨g', hg, ⟨t, m.rest, m.parent⟩, fun x y hx hxy => ?_⟩
  rw [m.parent, if_neg (show ¬ x = n from fun e => an (e ▸ hx))] at hxy
  exact hA x y hx hxy

theorem Rehung.congr {par par' : Nat → Option Nat} {g1 : Hugr Ops.Op Meta} (a : Rehung g par g1)
    (e : ∀ x, par x = par' x) : Rehung g par' g1 := ⟨a.tree, a.rest, fun x => (a.parent x).trans (e x)⟩

theorem Rehung.refl (ht : IsTree g) : Rehung g g.hier.parent g := ⟨ht, rfl, fun _ => rfl⟩

/-- The new nodes are placed. -/
theorem placeNew_ok {A : Nat → Prop} {p : Nat} (ap : A p) : ∀ (ns ss : List Nat) (g : Hugr Ops.Op Meta), IsTree g →
    Upward g.hier.parent A → g.live p = true →
    (∀ n ∈ ns, g.live n = true ∧ n ≠ g.entrypoint ∧ ¬ A n) →
    (∀ s ∈ ss, g.hier.parent s = some p ∧ s ≠ g.entrypoint ∧ s ∉ ns) →
    ∃ g', placeNew p g ns ss = some g' ∧
      Rehung g (fun x => if x ∈ ns then some p else g.hier.parent x) g' := by
  intro ns
  induction ns with
  | nil =>
    intro ss g ht _ _ _ _
    exact ⟨g, by cases ss <;> rfl, (Rehung.refl ht).congr (by simp)⟩
  | cons n ns ih =>
    intro ss g ht hA hp hns hss
    obtain ⟨n1, n2, n3⟩ := hns n List.mem_cons_self
    have fin : ∀ {g1 g2 : Hugr Ops.Op Meta}, Rehung g (fun x => if x = n then some p else g.hier.parent x) g1 →
        Rehung g1 (fun x => if x ∈ ns then some p else g1.hier.parent x) g2 →
        Rehung g (fun x => if x ∈ n :: ns then some p else g.hier.parent x) g2 := by
      intro g1 g2 r1 r2
      refine (r1.trans r2).congr fun x => ?_
      rw [r1.parent]
      by_cases h1 : x = n <;> by_cases h2 : x ∈ ns <;> simp [h1, h2]
    cases ss with
    | nil =>
      obtain ⟨g1, e1, r1, hA1⟩ := setParent_one ht hA n1 hp n3 ap
      obtain ⟨g2, e2, r2⟩ := ih [] g1 r1.tree hA1 (by rw [r1.live]; exact hp)
        (fun m hm => by rw [r1.live, r1.entry]; exact hns m (List.mem_cons_of_mem _ hm)) (by simp)
      exact ⟨g2, by rw [placeNew, e1]; exact e2, fin r1 r2⟩
    | cons s ss =>
      obtain ⟨s1, s2, s3⟩ := hss s List.mem_cons_self
      obtain ⟨g1, e1, r1, hA1⟩ := moveBefore_one ht hA n1 s1 n2 s2 (fun e => s3 (e ▸ List.mem_cons_self)) n3 ap
      obtain ⟨g2, e2, r2⟩ := ih ss g1 r1.tree hA1 (by rw [r1.live]; exact hp)
        (fun m hm => by rw [r1.live, r1.entry]; exact hns m (List.mem_cons_of_mem _ hm))
        (fun m hm => by
          obtain ⟨m1, m2, m3⟩ := hss m (List.mem_cons_of_mem _ hm)
          rw [r1.parent, if_neg (show ¬ m = n from fun e => m3 (e ▸ List.mem_cons_self)), r1.entry]
          exact ⟨m1, m2, fun e => m3 (List.mem_cons_of_mem _ e)⟩)
      exact ⟨g2, by rw [placeNew, e1]; exact e2, fin r1 r2⟩

/-- All nodes of a list get a new parent. -/
theorem setParents_ok {A : Nat → Prop} {q : Nat} (aq : A q) : ∀ (cs : List Nat) (g : Hugr Ops.Op Meta), IsTree g →
    Upward g.hier.parent A → g.live q = true → (∀ c ∈ cs, g.live c = true ∧ ¬ A c) →
    ∃ g', each (fun g c => g.setParent c q) g cs = some g' ∧
      Rehung g (fun x => if x ∈ cs then some q else g.hier.parent x) g' ∧ Upward g'.hier.parent A := by
  intro cs
  induction cs with
  | nil =>
    intro g ht hA _ _
    exact ⟨g, rfl, (Rehung.refl ht).congr (by simp), hA⟩
  | cons c cs ih =>
    intro g ht hA hq hcs
    obtain ⟨c1, c2⟩ := hcs c List.mem_cons_self
    obtain ⟨g1, e1, r1, hA1⟩ := setParent_one ht hA c1 hq c2 aq
    obtain ⟨g2, e2, r2, hA2⟩ := ih g1 r1.tree hA1 (by rw [r1.live]; exact hq)
      (fun m hm => by rw [r1.live]; exact hcs m (List.mem_cons_of_mem _ hm))
    refine ⟨g2, by rw [each, e1]; exact e2, (r1.trans r2).congr fun x => ?_, hA2⟩
    rw [r1.parent]
    by_cases h1 : x = c <;> by_cases h2 : x ∈ cs <;> simp [h1, h2]

/-- All adoptions are done: the children of each adopted node are now those of its adopter. -/
theorem adopts_ok {A : Nat → Prop} {map : List (Nat × Nat)} {f : Nat → Nat} : ∀ (as : List (Nat × Nat))
    (g : Hugr Ops.Op Meta), IsTree g → Upward g.hier.parent A → (as.map Prod.snd).Nodup →
    (∀ a ∈ as, map.lookup a.1 = some (f a.1) ∧ g.live (f a.1) = true ∧ A (f a.1) ∧ g.children a.2 ≠ [] ∧
      (∀ c, g.hier.parent c = some a.2 → ¬ A c) ∧ ∀ b ∈ as, f a.1 ≠ b.2) →
    ∃ g', each (adopt map) g as = some g' ∧ ∃ par, Rehung g par g' ∧
      (∀ a ∈ as, ∀ x, g.hier.parent x = some a.2 → par x = some (f a.1)) ∧
      ∀ x, (∀ a ∈ as, g.hier.parent x ≠ some a.2) → par x = g.hier.parent x := by
  intro as
  induction as with
  | nil =>
    intro g ht _ _ _
    exact ⟨g, rfl, _, Rehung.refl ht, by simp, fun _ _ => rfl⟩
  | cons a as ih =>
    intro g ht hA hnd ha
    rw [List.map_cons, List.nodup_cons] at hnd
    obtain ⟨a1, a2, a3, a4, a5, a6⟩ := ha a List.mem_cons_self
    have hch : ∀ c, c ∈ g.children a.2 ↔ g.hier.parent c = some a.2 := fun c => ht.child_iff _ _
    obtain ⟨g1, e1, r1, hA1⟩ := setParents_ok a3 (g.children a.2) g ht hA a2 (fun c hc =>
      ⟨(ht.parent_live c _ ((hch c).1 hc)).1, a5 c ((hch c).1 hc)⟩)
    have hdiff : ∀ b ∈ as, b.2 ≠ a.2 := fun b hb e => hnd.1 (List.mem_map.2 ⟨b, hb, e⟩)
    have par1 : ∀ b ∈ as, ∀ x, g1.hier.parent x = some b.2 ↔ g.hier.parent x = some b.2 := by
      intro b hb x
      rw [r1.parent]
      by_cases hx : x ∈ g.children a.2
      · rw [if_pos hx, (hch x).1 hx]
        constructor
        · intro e
          exact absurd (Option.some.inj e) (a6 b (List.mem_cons_of_mem _ hb))
        · intro e
          exact absurd (Option.some.inj e).symm (hdiff b hb)
      · rw [if_neg hx]
    obtain ⟨g2, e2, par, r2, p1, p2⟩ := ih g1 r1.tree hA1 hnd.2 (by
      intro b hb
      obtain ⟨b1, b2, b3, b4, b5, b6⟩ := ha b (List.mem_cons_of_mem _ hb)
      refine ⟨b1, by rw [r1.live]; exact b2, b3, ?_, ?_, fun c hc => b6 c (List.mem_cons_of_mem _ hc)⟩
      · obtain ⟨c, hc⟩ := List.exists_mem_of_ne_nil _ b4
        intro e
        have : c ∈ g1.children b.2 := (r1.tree.child_iff _ _).2 ((par1 b hb c).2 ((ht.child_iff _ _).1 hc))
        rw [e] at this
        cases this
      · intro c hc
        exact b5 c ((par1 b hb c).1 hc))
    refine ⟨g2, ?_, par, r1.trans r2, ?_, ?_⟩
    · rw [each]
      have : adopt map g a = some g1 := by
        unfold adopt
        rw [a1]
        simp only []
        rw [if_neg a4]
        exact e1
      rw [this]
      exact e2
    · intro b hb x hx
      rcases List.mem_cons.1 hb with rfl | hb
      · have hp : g1.hier.parent x = some (f b.1) := by rw [r1.parent, if_pos ((hch x).2 hx)]
        rw [p2 x, hp]
        intro c hc e
        rw [hp] at e
        exact a6 c (List.mem_cons_of_mem _ hc) (Option.some.inj e)
      · exact p1 b hb x ((par1 b hb x).2 hx)
    · intro x hx
      have hp : g1.hier.parent x = g.hier.parent x := by
        rw [r1.parent, if_neg]
        intro hc
        exact hx a List.mem_cons_self ((hch x).1 hc)
      rw [p2 x, hp]
      intro c hc
      rw [hp]
      exact hx c (List.mem_cons_of_mem _ hc)

/-! ## Removing nodes -/

/-- The nodes of `D` are gone. -/
structure Without (g : Hugr Ops.Op Meta) (D : List Nat) (g' : Hugr Ops.Op Meta) : Prop where
  live : ∀ n, g'.live n = true ↔ g.live n = true ∧ n ∉ D
  parent : ∀ n, g'.hier.parent n = if n ∈ D ∨ ∃ q ∈ D, g.hier.parent n = some q then none else g.hier.parent n
  ok : g'.hier.Ok
  node : ∀ n, n ∉ D → g'.ops n = g.ops n
  ports : g'.ins = g.ins ∧ g'.outs = g.outs ∧ g'.cap = g.cap ∧ g'.metadata = g.metadata
  root_entry : g'.moduleRoot = g.moduleRoot ∧ g'.entrypoint = g.entrypoint
  links : ∀ l, l ∈ g'.links ↔ l ∈ g.links ∧ l.src ∉ D ∧ l.dst ∉ D

theorem removeOne_ok (hok : g.hier.Ok) {n : Nat} (hl : g.live n = true) (he : n ≠ g.entrypoint) :
    ∃ g', g.removeNode opsInfo.toOpInfo n = some g' ∧ Without g [n] g' := by
  unfold Hugr.removeNode
  rw [if_pos (by unfold Hugr.validNonEntrypoint; simp [hl, he])]
  refine ⟨_, rfl, ?_, ?_, ⟨?_, ?_⟩, ?_, ⟨rfl, rfl, rfl, rfl⟩, ⟨rfl, rfl⟩, ?_⟩
  · intro m
    simp only [upd, List.mem_singleton]
    by_cases hm : m = n <;> simp [hm]
  · intro m
    rw [show ({ g with live := upd g.live n false, links := _, hier := g.hier.remove n, ops := upd g.ops n _ } :
      Hugr Ops.Op Meta).hier.parent m = (g.hier.remove n).parent m from rfl, remove_parent hok]
    simp
  · intro p m
    rw [remove_children hok, remove_parent hok]
    by_cases hp : p = n
    · subst hp
      rw [if_pos rfl]
      constructor
      · intro h'; cases h'
      · intro h'
        by_cases hm : m = p ∨ g.hier.parent m = some p
        · rw [if_pos hm] at h'; cases h'
        · rw [if_neg hm] at h'
          exact absurd (.inr h') hm
    · rw [if_neg hp, (hok.child_once p).mem_erase_iff, hok.child_iff]
      by_cases hm : m = n ∨ g.hier.parent m = some n
      · rw [if_pos hm]
        constructor
        · rintro ⟨h1, h2⟩
          rcases hm with hm | hm
          · exact absurd hm h1
          · rw [h2] at hm
            exact absurd (Option.some.inj hm) hp
        · intro h'; cases h'
      · rw [if_neg hm]
        exact ⟨fun h' => h'.2, fun h' => ⟨fun e => hm (.inl e), h'⟩⟩
  · intro p
    rw [remove_children hok]
    split
    · exact List.nodup_nil
    · exact (hok.child_once p).erase _
  · intro m hm
    simp only [List.mem_singleton] at hm
    simp only [upd]
    rw [if_neg hm]
  · intro l
    simp [List.mem_filter]

theorem Without.trans {D D' : List Nat} {g1 g2 : Hugr Ops.Op Meta} (a : Without g D g1) (b : Without g1 D' g2) :
    Without g (D ++ D') g2 := by
  refine ⟨?_, ?_, b.ok, ?_, ?_, ?_, ?_⟩
  · intro n
    rw [b.live, a.live, List.mem_append]
    tauto
  · intro n
    rw [b.parent, a.parent]
    by_cases h1 : n ∈ D ∨ ∃ q ∈ D, g.hier.parent n = some q
    · have h3 : n ∈ D ++ D' ∨ ∃ q ∈ D ++ D', g.hier.parent n = some q := by
        rcases h1 with h1 | ⟨q, h1, h2⟩
        · exact .inl (List.mem_append_left _ h1)
        · exact .inr ⟨q, List.mem_append_left _ h1, h2⟩
      rw [if_pos h3]
      simp only [if_pos h1]
      split <;> rfl
    · simp only [if_neg h1]
      by_cases h2 : n ∈ D' ∨ ∃ q ∈ D', g.hier.parent n = some q
      · have h3 : n ∈ D ++ D' ∨ ∃ q ∈ D ++ D', g.hier.parent n = some q := by
          rcases h2 with h2 | ⟨q, h2, h3⟩
          · exact .inl (List.mem_append_right _ h2)
          · exact .inr ⟨q, List.mem_append_right _ h2, h3⟩
        rw [if_pos h2, if_pos h3]
      · have h3 : ¬ (n ∈ D ++ D' ∨ ∃ q ∈ D ++ D', g.hier.parent n = some q) := by
          simp only [List.mem_append]
          rintro ((h3 | h3) | ⟨q, h3 | h3, h4⟩)
          · exact h1 (.inl h3)
          · exact h2 (.inl h3)
          · exact h1 (.inr ⟨q, h3, h4⟩)
          · exact h2 (.inr ⟨q, h3, h4⟩)
        rw [if_neg h2, if_neg h3]
  · intro n hn
    rw [List.mem_append, not_or] at hn
    rw [b.node n hn.2, a.node n hn.1]
  · obtain ⟨a1, a2, a3, a4⟩ := a.ports
    obtain ⟨b1, b2, b3, b4⟩ := b.ports
    exact ⟨b1.trans a1, b2.trans a2, b3.trans a3, b4.trans a4⟩
  · exact ⟨b.root_entry.1.trans a.root_entry.1, b.root_entry.2.trans a.root_entry.2⟩
  · intro l
    rw [b.links, a.links, List.mem_append, List.mem_append]
    tauto

theorem removeAll_ok : ∀ (D : List Nat) (g : Hugr Ops.Op Meta), g.hier.Ok → D.Nodup →
    (∀ n ∈ D, g.live n = true ∧ n ≠ g.entrypoint) →
    ∃ g', each (fun g n => g.removeNode opsInfo.toOpInfo n) g D = some g' ∧ Without g D g' := by
  intro D
  induction D with
  | nil =>
    intro g hok _ _
    exact ⟨g, rfl, by simp, by simp, hok, fun _ _ => rfl, ⟨rfl, rfl, rfl, rfl⟩, ⟨rfl, rfl⟩, by simp⟩
  | cons n D ih =>
    intro g hok hnd hD
    rw [List.nodup_cons] at hnd
    obtain ⟨d1, d2⟩ := hD n List.mem_cons_self
    obtain ⟨g1, e1, w1⟩ := removeOne_ok hok d1 d2
    obtain ⟨g2, e2, w2⟩ := ih g1 w1.ok hnd.2 (by
      intro m hm
      obtain ⟨m1, m2⟩ := hD m (List.mem_cons_of_mem _ hm)
      rw [w1.root_entry.2]
      refine ⟨(w1.live m).2 ⟨m1, ?_⟩, m2⟩
      rw [List.mem_singleton]
      rintro rfl
      exact hnd.1 hm)
    exact ⟨g2, by rw [each, e1]; exact e2, w1.trans w2⟩

/-- The rest is a tree if what is below a removed node is removed too. -/
theorem Without.tree {D : List Nat} {g' : Hugr Ops.Op Meta} (w : Without g D g') (ht : IsTree g)
    (hroot : g.moduleRoot ∉ D) (hentry : g.entrypoint ∉ D) (hdown : ∀ x q, g.hier.parent x = some q → q ∈ D → x ∈ D) :
    IsTree g' ∧ ∀ n, g'.hier.parent n = if n ∈ D then none else g.hier.parent n := by
  have hpar : ∀ n, g'.hier.parent n = if n ∈ D then none else g.hier.parent n := by
    intro n
    rw [w.parent]
    by_cases h1 : n ∈ D
    · rw [if_pos h1, if_pos (.inl h1)]
    · rw [if_neg h1, if_neg]
      rintro (h2 | ⟨q, h2, h3⟩)
      · exact h1 h2
      · exact h1 (hdown n q h3 h2)
  have hpp : ∀ n q, g'.hier.parent n = some q ↔ n ∉ D ∧ g.hier.parent n = some q := by
    intro n q
    rw [hpar]
    by_cases h1 : n ∈ D <;> simp [h1]
  refine ⟨⟨?_, ?_, ?_, ?_, ?_, w.ok.child_iff, w.ok.child_once, ?_, ?_⟩, hpar⟩
  · rw [w.root_entry.1]
    exact (w.live _).2 ⟨ht.root_live, hroot⟩
  · rw [w.root_entry.2]
    exact (w.live _).2 ⟨ht.entry_live, hentry⟩
  · rw [w.root_entry.1, hpar, if_neg hroot]
    exact ht.root_top
  · intro n hn hr
    rw [w.root_entry.1] at hr
    obtain ⟨n1, n2⟩ := (w.live n).1 hn
    obtain ⟨q, hq⟩ := ht.has_parent n n1 hr
    exact ⟨q, (hpp n q).2 ⟨n2, hq⟩⟩
  · intro n q hq
    obtain ⟨n1, n2⟩ := (hpp n q).1 hq
    obtain ⟨l1, l2⟩ := ht.parent_live n q n2
    exact ⟨(w.live n).2 ⟨l1, n1⟩, (w.live q).2 ⟨l2, fun hD => n1 (hdown n q n2 hD)⟩⟩
  · intro n hn
    obtain ⟨n1, n2⟩ := (w.live n).1 hn
    rw [w.root_entry.1]
    have := ht.reaches_root n n1
    clear hn n1
    revert n2
    generalize g.moduleRoot = r at this
    induction this with
    | refl => intro _; exact .refl _
    | step hp _ ih =>
      intro hD
      exact .step ((hpp _ _).2 ⟨hD, hp⟩) (ih fun hq => hD (hdown _ _ hp hq))
  · intro n hn
    rw [w.ports.2.2.1]
    exact ht.in_range n ((w.live n).1 hn).1

end Verif.Patch
