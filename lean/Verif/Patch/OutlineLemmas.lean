import Verif.Patch.Outline

/-!
# Outlining blocks: which blocks are accepted, and the single steps
-/
namespace Verif.Patch

open Verif.Graph Verif.Ops Verif.Passes Verif.Validate

variable {Meta : Type} {C : Validate.Context} {h g : Hugr Ops.Op Meta}

/-! ## The scan -/

/-- Control may enter the blocks here. -/
def Enters (h : Hugr Ops.Op Meta) (bs : List Nat) (e n : Nat) : Prop := n = e ∨ ∃ p ∈ inputNeighbours h n, p ∉ bs

instance (bs : List Nat) (e n : Nat) : Decidable (Enters h bs e n) :=
  inferInstanceAs (Decidable (n = e ∨ ∃ p ∈ inputNeighbours h n, p ∉ bs))

theorem scan_ok (bs : List Nat) (c : Nat) : ∀ (ns : List Nat) (entry e' : Option Nat) (exit x' : Option (Nat × Nat)),
    scanBlocks h bs c ns entry exit = .ok (e', x') ↔
      entry.toList ++ ns.filter (fun n => Enters h bs c n) = e'.toList ∧
      exit.toList ++ ns.flatMap (fun n => ((outputNeighbours h n).filter (· ∉ bs)).map (n, ·)) = x'.toList := by
  intro ns
  induction ns with
  | nil =>
    intro entry e' exit x'
    simp only [scanBlocks, List.filter_nil, List.append_nil, List.flatMap_nil]
    constructor
    · intro h; cases h; exact ⟨rfl, rfl⟩
    · rintro ⟨h1, h2⟩
      cases entry <;> cases e' <;> cases exit <;> cases x' <;> simp_all
  | cons n ns ih =>
    intro entry e' exit x'
    have hlen : ∀ {α : Type} {o : Option α}, o.toList.length ≤ 1 := fun {_ o} => by cases o <;> simp
    simp only [scanBlocks]
    by_cases hE : Enters h bs c n
    · have hE' : n = c ∨ ∃ p ∈ inputNeighbours h n, p ∉ bs := hE
      simp only [hE', true_and, if_true]
      have hf : (n :: ns).filter (fun n => Enters h bs c n) = n :: ns.filter (fun n => Enters h bs c n) :=
        List.filter_cons_of_pos (by simpa using hE)
      rw [hf]
      cases entry with
      | some e =>
        simp only [Option.isSome_some, if_true]
        refine ⟨fun h => (nomatch h), fun ⟨h1, _⟩ => ?_⟩
        have := congrArg List.length h1
        have hl := hlen (o := e')
        simp at this; omega
      | none =>
        simp only [Option.isSome_none, Bool.false_eq_true, if_false, Option.toList_none, List.nil_append]
        rw [List.flatMap_cons]
        rcases hos : (outputNeighbours h n).filter (· ∉ bs) with _ | ⟨o, _ | ⟨o2, os⟩⟩
        · simp only [List.map_nil, List.nil_append]
          rw [ih]; rfl
        · cases exit with
          | none =>
            simp only [List.map_cons, List.map_nil, Option.toList_none, List.nil_append]
            rw [ih]; rfl
          | some q =>
            obtain ⟨prev, o'⟩ := q
            simp only
            refine ⟨fun h => (nomatch h), fun ⟨_, h2⟩ => ?_⟩
            have := congrArg List.length h2
            have hl := hlen (o := x')
            simp at this; omega
        · simp only
          refine ⟨fun h => (nomatch h), fun ⟨_, h2⟩ => ?_⟩
          have := congrArg List.length h2
          have hl := hlen (o := x')
          simp at this; omega
    · have hE' : ¬ (n = c ∨ ∃ p ∈ inputNeighbours h n, p ∉ bs) := hE
      simp only [hE', false_and, if_false]
      have hf : (n :: ns).filter (fun n => Enters h bs c n) = ns.filter (fun n => Enters h bs c n) :=
        List.filter_cons_of_neg (by simpa using hE)
      rw [hf, List.flatMap_cons]
      rcases hos : (outputNeighbours h n).filter (· ∉ bs) with _ | ⟨o, _ | ⟨o2, os⟩⟩
      · simp only [List.map_nil, List.nil_append]
        rw [ih]
      · cases exit with
        | none =>
          simp only [List.map_cons, List.map_nil, Option.toList_none, List.nil_append]
          rw [ih]; rfl
        | some q =>
          obtain ⟨prev, o'⟩ := q
          simp only
          refine ⟨fun h => (nomatch h), fun ⟨_, h2⟩ => ?_⟩
          have := congrArg List.length h2
          have hl := hlen (o := x')
          simp at this; omega
      · simp only
        refine ⟨fun h => (nomatch h), fun ⟨_, h2⟩ => ?_⟩
        have := congrArg List.length h2
        have hl := hlen (o := x')
        simp at this; omega

/-! ## Adding nodes -/

theorem addNodes_eq : ∀ (ns : List (Nat × Nat × Ops.Op)) (h : Hugr Ops.Op Meta), IsTree h → (ns.map Prod.fst).Nodup →
    (∀ e ∈ ns, h.live e.1 = false) →
    (∀ k e, ns[k]? = some e → h.live e.2.1 = true ∨ e.2.1 ∈ (ns.take k).map Prod.fst) →
    ∃ g, addNodes h ns = some g ∧ IsTree g ∧ (∀ x, g.live x = true ↔ h.live x = true ∨ x ∈ ns.map Prod.fst) ∧
      (∀ e ∈ ns, g.ops e.1 = e.2.2 ∧ g.ins e.1 = opsInfo.inputs e.2.2 ∧ g.outs e.1 = opsInfo.outputs e.2.2 ∧
        g.hier.parent e.1 = some e.2.1) ∧
      (∀ x, x ∉ ns.map Prod.fst → g.ops x = h.ops x ∧ g.ins x = h.ins x ∧ g.outs x = h.outs x ∧
        g.hier.parent x = h.hier.parent x) ∧
      (∀ p, g.children p = h.children p ++ (ns.filter fun e => e.2.1 = p).map Prod.fst) ∧
      g.links = h.links ∧ g.metadata = h.metadata ∧ g.moduleRoot = h.moduleRoot ∧ g.entrypoint = h.entrypoint
  | [], h, ht, _, _, _ => ⟨h, rfl, ht, by simp, by simp, by simp, by simp, rfl, rfl, rfl, rfl⟩
  | e :: ns, h, ht, hd, hf, hp => by
    have hp0 : h.live e.2.1 = true := by
      rcases hp 0 e rfl with h1 | h1
      · exact h1
      · simp at h1
    rw [List.map_cons, List.nodup_cons] at hd
    obtain ⟨e1, t1⟩ := addNodeWithParent_eq (op := e.2.2) ht (hf e (by simp)) hp0
    have hne : ∀ d ∈ ns, d.1 ≠ e.1 := fun d hd' e' => hd.1 (e' ▸ List.mem_map_of_mem hd')
    obtain ⟨g, a1, a2, a3, a4, a5, a6, a7, a8, a9, a10⟩ := addNodes_eq ns _ t1 hd.2
      (fun d hd' => by simp only [added]; rw [upd_ne _ _ (hne d hd')]; exact hf d (by simp [hd']))
      (fun k d hk => by
        rcases hp (k + 1) d (by simpa using hk) with h1 | h1
        · left
          simp only [added, upd]
          split
          · rfl
          · exact h1
        · simp only [List.take_succ_cons, List.map_cons, List.mem_cons] at h1
          rcases h1 with h1 | h1
          · left; simp only [added]; rw [h1, upd_same]
          · exact .inr h1)
    refine ⟨g, ?_, a2, ?_, ?_, ?_, ?_, a7, a8, a9, a10⟩
    · simp only [addNodes, e1]; exact a1
    · intro x
      rw [a3]
      simp only [added, upd, List.map_cons, List.mem_cons]
      by_cases hx : x = e.1 <;> simp [hx]
    · intro d hd'
      rcases List.mem_cons.1 hd' with rfl | hd'
      · obtain ⟨b1, b2, b3, b4⟩ := a5 d.1 hd.1
        simp only [added, upd_same] at b1 b2 b3 b4
        exact ⟨b1, b2, b3, b4⟩
      · exact a4 d hd'
    · intro x hx
      simp only [List.map_cons, List.mem_cons, not_or] at hx
      obtain ⟨b1, b2, b3, b4⟩ := a5 x hx.2
      simp only [added] at b1 b2 b3 b4
      rw [upd_ne _ _ hx.1] at b1 b2 b3 b4
      exact ⟨b1, b2, b3, b4⟩
    · intro p
      rw [a6]
      by_cases hx : e.2.1 = p
      · subst hx
        rw [List.filter_cons_of_pos (by simp), List.map_cons]
        simp only [added, Hugr.children, upd_same, List.append_assoc, List.cons_append, List.nil_append]
      · rw [List.filter_cons_of_neg (by simpa using hx)]
        simp only [added, Hugr.children]
        rw [upd_ne _ _ (fun e' => hx e'.symm)]

/-! ## Links -/

/-- A link whose start is one of the ports goes to the node instead. -/
def shift (d : Nat) (P : List (Nat × Nat)) (l : Link) : Link :=
  if (l.src, l.srcPort) ∈ P then { l with dst := d, dstPort := 0 } else l

theorem shift_one {ls : List Link} {d : Nat} {s : Nat × Nat} (h1 : ls.countP (fun l => l.at s.1 .outgoing s.2) = 1) :
    (ls.filter (fun l => !l.at s.1 .outgoing s.2) ++ [(⟨s.1, s.2, d, 0⟩ : Link)]).Perm (ls.map (shift d [s])) := by
  have hat : ∀ l : Link, l.at s.1 .outgoing s.2 = true ↔ (l.src, l.srcPort) = s := by
    intro l; simp [Link.at, Prod.ext_iff]
  induction ls with
  | nil => simp at h1
  | cons l ls ih =>
    by_cases hl : l.at s.1 .outgoing s.2 = true
    · rw [List.countP_cons_of_pos (p := fun l => Link.at l s.1 .outgoing s.2) hl] at h1
      have h0 : ls.countP (fun l => l.at s.1 .outgoing s.2) = 0 := by omega
      rw [List.countP_eq_zero] at h0
      rw [List.filter_cons_of_neg (by simpa using hl), List.filter_eq_self.2 (fun k hk => by simpa using h0 k hk), List.map_cons]
      have e1 : shift d [s] l = ⟨s.1, s.2, d, 0⟩ := by
        have := (hat l).1 hl
        unfold shift
        rw [if_pos (by simp [this])]
        rw [← this]
      have e2 : ls.map (shift d [s]) = ls := by
        conv_rhs => rw [← List.map_id ls]
        apply List.map_congr_left
        intro k hk
        unfold shift
        rw [if_neg (by simp only [List.mem_singleton]; exact fun e => h0 k hk ((hat k).2 e))]
        rfl
      rw [e1, e2]
      exact List.perm_append_singleton _ _
    · rw [List.countP_cons_of_neg (p := fun l => Link.at l s.1 .outgoing s.2) hl] at h1
      rw [List.filter_cons_of_pos (by simpa using hl), List.map_cons]
      have e1 : shift d [s] l = l := by
        unfold shift
        rw [if_neg (by simp only [List.mem_singleton]; exact fun e => hl ((hat l).2 e))]
      rw [e1]
      exact (ih h1).cons l

theorem retarget_eq {B : Nat} (hB : CanEnd h B 0) : ∀ (P : List (Nat × Nat)) (ls : List Link), P.Nodup →
    (∀ s ∈ P, CanStart h s.1 s.2) → (∀ s ∈ P, ls.countP (fun l => l.at s.1 .outgoing s.2) = 1) →
    ∃ ks, retarget B (SetLinks h ls) P = some (SetLinks h ks) ∧ ks.Perm (ls.map (shift B P))
  | [], ls, _, _, _ => ⟨ls, rfl, by
      have : ls.map (shift B []) = ls := by
        conv_rhs => rw [← List.map_id ls]
        apply List.map_congr_left
        intro l _; simp [shift]
      rw [this]⟩
  | s :: P, ls, hd, hs, hc => by
    rw [List.nodup_cons] at hd
    have e1 := disconnect_set (dir := .outgoing) (hs s (by simp)).1 (hs s (by simp)).2 ls
    have e2 : (SetLinks h (ls.filter fun l => !l.at s.1 .outgoing s.2)).connect ⟨s.1, s.2, B, 0⟩ =
        some (SetLinks h (ls.filter (fun l => !l.at s.1 .outgoing s.2) ++ [⟨s.1, s.2, B, 0⟩])) :=
      connect_eq (h := SetLinks h _) (hs s (by simp)) hB
    have hp := shift_one (d := B) (hc s (by simp))
    have hat : ∀ {t : Nat × Nat} {l : Link}, l.at t.1 .outgoing t.2 = true ↔ (l.src, l.srcPort) = t := by
      intro t l; simp [Link.at, Prod.ext_iff]
    obtain ⟨ks, k1, k2⟩ := retarget_eq hB P (ls.filter (fun l => !l.at s.1 .outgoing s.2) ++ [⟨s.1, s.2, B, 0⟩]) hd.2
      (fun t ht => hs t (by simp [ht]))
      (fun t ht => by
        rw [hp.countP_eq, List.countP_map, ← hc t (by simp [ht])]
        apply List.countP_congr
        intro l _
        simp only [Function.comp_apply, hat]
        unfold shift
        split <;> rfl)
    refine ⟨ks, ?_, k2.trans ((hp.map _).trans ?_)⟩
    · simp only [retarget, e1, e2]; exact k1
    · rw [List.map_map]
      apply List.Perm.of_eq
      apply List.map_congr_left
      intro l _
      simp only [Function.comp_apply]
      unfold shift
      by_cases h1 : (l.src, l.srcPort) = s <;> by_cases h2 : (l.src, l.srcPort) ∈ P <;> simp [h1, h2]

end Verif.Patch
