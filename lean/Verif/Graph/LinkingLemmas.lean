import Verif.Graph.Linking
import Verif.Graph.InsertProps

/-!
# Linking: moving the uses of nodes to other nodes
-/
namespace Verif.Graph

variable {Op Meta : Type}

/-- The link with its source replaced, if it is one of the nodes to replace. -/
def Link.reroute (P : List (Nat × Nat)) (l : Link) : Link :=
  { l with src := (P.lookup l.src).getD l.src }

/-- What replacing sources needs: the nodes to replace are live, not the module root nor above the
entrypoint, and none is inside another; the new sources are live and not inside a node to replace; the
targets of the links to move have no other link; and the new sources have the ports. -/
structure Replaceable (h : Hugr Op Meta) (P : List (Nat × Nat)) : Prop where
  nodup : (P.map Prod.fst).Nodup
  old_live : ∀ e ∈ P, h.live e.1 = true
  old_root : ∀ e ∈ P, e.1 ≠ h.moduleRoot
  old_entry : ∀ e ∈ P, ¬ Above h.hier.parent h.entrypoint e.1
  old_apart : ∀ e ∈ P, ∀ d ∈ P, Above h.hier.parent e.1 d.1 → e.1 = d.1
  new_live : ∀ e ∈ P, h.live e.2 = true
  new_apart : ∀ e ∈ P, ∀ d ∈ P, ¬ Above h.hier.parent e.2 d.1
  single : ∀ e ∈ P, ∀ l ∈ h.links, l.src = e.1 →
    h.linkedOutputs l.dst l.dstPort = [(l.src, l.srcPort)] ∧ l.srcPort < h.outs e.2

/-- `g` is `h` with the subtrees of the old sources removed and their links moved. -/
structure SrcReplaced (h : Hugr Op Meta) (P : List (Nat × Nat)) (g : Hugr Op Meta) : Prop where
  live : ∀ m, g.live m = true ↔ h.live m = true ∧ ∀ e ∈ P, ¬ Above h.hier.parent m e.1
  parent : ∀ m, g.live m = true → g.hier.parent m = h.hier.parent m
  children : ∀ m, g.live m = true →
    g.hier.children m = (h.hier.children m).filter fun c => c ∉ P.map Prod.fst
  ops : ∀ m, g.live m = true → g.ops m = h.ops m
  ports : ∀ m, g.live m = true → g.ins m = h.ins m ∧ g.outs m = h.outs m
  metadata : ∀ m, g.live m = true → g.metadata m = h.metadata m
  links : g.links.Perm ((h.links.map (Link.reroute P)).filter fun l => g.live l.src && g.live l.dst)
  roots : g.moduleRoot = h.moduleRoot ∧ g.entrypoint = h.entrypoint

theorem linkedOutputs_single {h : Hugr Op Meta} {t p s o : Nat}
    (hs : h.linkedOutputs t p = [(s, o)]) :
    h.links.filter (fun l => l.dst = t && l.dstPort = p) = [⟨s, o, t, p⟩] := by
  unfold Hugr.linkedOutputs at hs
  rcases hf : h.links.filter (fun l => l.dst = t && l.dstPort = p) with _ | ⟨x, _ | ⟨y, L⟩⟩
  · rw [hf] at hs; cases hs
  · rw [hf] at hs
    have hx : x ∈ h.links.filter (fun l => l.dst = t && l.dstPort = p) := by rw [hf]; simp
    rw [List.mem_filter] at hx
    obtain ⟨a, b, c, d⟩ := x
    simp only [Bool.and_eq_true, decide_eq_true_eq] at hx
    simp only [List.map_cons, List.map_nil, List.cons.injEq, Prod.mk.injEq, and_true] at hs
    obtain ⟨_, rfl, rfl⟩ := hx
    obtain ⟨rfl, rfl⟩ := hs
    exact hf
  · rw [hf] at hs; simp at hs

theorem rewire_ok (new : Nat) (ts : List (Nat × Nat)) (h : Hugr Op Meta) (hnd : ts.Nodup)
    (hnew : h.live new = true)
    (hs : ∀ t ∈ ts, ∃ s p, h.linkedOutputs t.1 t.2 = [(s, p)] ∧ p < h.outs new)
    (ht : ∀ t ∈ ts, h.live t.1 = true ∧ t.2 < h.ins t.1) :
    ∃ L, rewire new h ts = some { h with links := L } ∧
      L.Perm (h.links.map fun l => if (l.dst, l.dstPort) ∈ ts then { l with src := new } else l) := by
  induction ts generalizing h with
  | nil => exact ⟨h.links, rfl, by simp⟩
  | cons t ts ih =>
    obtain ⟨t, p⟩ := t
    obtain ⟨s, o, h1, h2⟩ := hs (t, p) (by simp)
    obtain ⟨h3, h4⟩ := ht (t, p) (by simp)
    simp only at h1 h3 h4
    rw [List.nodup_cons] at hnd
    have hfil := linkedOutputs_single h1
    let L1 : List Link := (h.links.filter fun l => !l.at t .incoming p) ++ [⟨new, o, t, p⟩]
    have hstep : rewire new h ((t, p) :: ts) = rewire new { h with links := L1 } ts := by
      rw [rewire, h1]
      simp only []
      rw [Hugr.disconnect, if_pos (by simp [Hugr.numPorts, h3, h4])]
      simp only []
      rw [Hugr.connect, if_pos (by simp [hnew, h2, h3, h4])]
    have hL1 : L1.Perm (h.links.map fun l =>
        if l.at t .incoming p then { l with src := new } else l) := by
      have := filter_map_perm (fun l : Link => l.at t .incoming p)
        (fun l => { l with src := new }) h.links
      have he : h.links.filter (fun l : Link => l.at t .incoming p) = [⟨s, o, t, p⟩] := by
        rw [← hfil]; apply List.filter_congr
        intro l _
        simp only [Link.at]
        by_cases ha : l.dst = t <;> by_cases hb : l.dstPort = p <;> simp [ha, hb]
      rw [he] at this
      exact this
    have hout : ∀ u ∈ ts, ({ h with links := L1 } : Hugr Op Meta).linkedOutputs u.1 u.2 =
        h.linkedOutputs u.1 u.2 := by
      intro u hu
      have hne : u ≠ (t, p) := by rintro rfl; exact hnd.1 hu
      unfold Hugr.linkedOutputs
      simp only [L1, List.filter_append, List.filter_filter]
      have h5 : [(⟨new, o, t, p⟩ : Link)].filter (fun l => decide (l.dst = u.1) && decide (l.dstPort = u.2)) = [] := by
        rw [List.filter_cons_of_neg]
        · rfl
        · intro hc
          simp only [Bool.and_eq_true, decide_eq_true_eq] at hc
          exact hne (Prod.ext hc.1.symm hc.2.symm)
      rw [h5, List.append_nil]
      congr 1
      apply List.filter_congr
      intro l _
      simp only [Link.at]
      by_cases ha : l.dst = u.1 <;> by_cases hb : l.dstPort = u.2 <;> simp only [ha, hb, decide_true, decide_false, Bool.true_and, Bool.false_and, Bool.and_true, Bool.and_false]
      simp only [Bool.not_eq_true', Bool.and_eq_false_iff, beq_eq_false_iff_ne]
      by_cases hc : u.1 = t
      · right; intro hd; exact hne (Prod.ext hc hd)
      · left; exact hc
    obtain ⟨L, h5, h6⟩ := ih { h with links := L1 } hnd.2 hnew
      (by intro u hu; rw [hout u hu]; exact hs u (List.mem_cons_of_mem _ hu))
      (by intro u hu; exact ht u (List.mem_cons_of_mem _ hu))
    refine ⟨L, by rw [hstep, h5], h6.trans ?_⟩
    refine (hL1.map _).trans (List.Perm.of_eq ?_)
    rw [List.map_map]
    apply List.map_congr_left
    intro l _
    simp only [Function.comp, Link.at, Bool.and_eq_true, beq_iff_eq]
    by_cases hc : l.dst = t ∧ l.dstPort = p
    · rw [if_pos hc]
      have : (l.dst, l.dstPort) = (t, p) := Prod.ext hc.1 hc.2
      simp only [this, List.mem_cons, true_or, if_true]
      rw [if_neg hnd.1]
    · rw [if_neg hc]
      have hne : (l.dst, l.dstPort) ≠ (t, p) := by
        intro he; simp only [Prod.mk.injEq] at he; exact hc he
      simp only [List.mem_cons, hne, false_or]

theorem allLinkedInputs_perm {h : Hugr Op Meta} (hl : LinksOk h) (n : Nat) :
    (h.allLinkedInputs n).Perm ((h.links.filter fun l => l.src = n).map fun l => (l.dst, l.dstPort)) := by
  have := ports_perm h.links (fun l => decide (l.src = n)) (fun l => l.srcPort) (h.outs n)
    (fun _ l => some (l.dst, l.dstPort)) (by
      intro l hm hp
      have h1 := hl l hm
      simp only [decide_eq_true_eq] at hp
      rw [← hp]; exact h1.2.1)
  have e1 : h.allLinkedInputs n = (List.range (h.outs n)).flatMap fun t =>
      (h.links.filter fun x => decide (x.src = n) && x.srcPort == t).filterMap fun l =>
        some (l.dst, l.dstPort) := by
    unfold Hugr.allLinkedInputs Hugr.linkedInputs
    congr 1
    funext t
    rw [List.filterMap_eq_map' ]
    congr 1
  have e2 : (h.links.filter fun l => l.src = n).map (fun l => (l.dst, l.dstPort)) =
      h.links.filterMap fun l => if decide (l.src = n) then some (l.dst, l.dstPort) else none := by
    clear this e1
    induction h.links with
    | nil => rfl
    | cons l L ih =>
      rw [List.filterMap_cons]
      by_cases hc : l.src = n
      · rw [List.filter_cons_of_pos (by simpa using hc)]; simp [hc]; simpa using ih
      · rw [List.filter_cons_of_neg (by simpa using hc)]; simp [hc]; simpa using ih
  rw [e1, e2]; exact this

theorem allLinkedInputs_mem {h : Hugr Op Meta} (hl : LinksOk h) (n : Nat) (t : Nat × Nat) :
    t ∈ h.allLinkedInputs n ↔ ∃ l ∈ h.links, l.src = n ∧ (l.dst, l.dstPort) = t := by
  rw [(allLinkedInputs_perm hl n).mem_iff]
  simp only [List.mem_map, List.mem_filter, decide_eq_true_eq, and_assoc]

theorem allLinkedInputs_nodup {h : Hugr Op Meta} (hl : LinksOk h) (n : Nat)
    (hs : ∀ l ∈ h.links, l.src = n → h.linkedOutputs l.dst l.dstPort = [(l.src, l.srcPort)]) :
    (h.allLinkedInputs n).Nodup := by
  rw [(allLinkedInputs_perm hl n).nodup_iff, List.nodup_iff_count_le_one]
  intro a
  by_cases ha : a ∈ (h.links.filter fun l => l.src = n).map fun l => (l.dst, l.dstPort)
  · simp only [List.mem_map, List.mem_filter, decide_eq_true_eq] at ha
    obtain ⟨l, ⟨h1, h2⟩, rfl⟩ := ha
    have h3 := linkedOutputs_single (hs l h1 h2)
    rw [List.count, List.countP_map]
    refine Nat.le_trans (List.Sublist.countP_le List.filter_sublist) ?_
    rw [List.countP_eq_length_filter]
    have : h.links.filter ((fun x => x == (l.dst, l.dstPort)) ∘ fun l => (l.dst, l.dstPort)) =
        h.links.filter (fun x => x.dst = l.dst && x.dstPort = l.dstPort) := by
      apply List.filter_congr
      intro x _
      simp only [Function.comp]
      by_cases hc : x.dst = l.dst <;> by_cases hd : x.dstPort = l.dstPort <;> simp [hc, hd]
    rw [this, h3]
    simp
  · rw [List.count_eq_zero_of_not_mem ha]; omega

/-- Moving the uses of one node. -/
theorem replaceStaticSrc_ok (I : OpInfo Op) {h : Hugr Op Meta} (ht : IsTree h) (hl : LinksOk h)
    {old new : Nat} (hr : Replaceable h [(old, new)]) :
    ∃ g, h.replaceStaticSrc I old new = some g ∧ SrcReplaced h [(old, new)] g ∧ IsTree g ∧
      LinksOk g := by
  have hnew := hr.new_live (old, new) (by simp)
  have hsin := hr.single (old, new) (by simp)
  obtain ⟨L, h1, h2⟩ := rewire_ok new (h.allLinkedInputs old) h
    (allLinkedInputs_nodup hl old fun l a b => (hsin l a b).1) hnew
    (by
      intro t hm
      obtain ⟨l, a, b, rfl⟩ := (allLinkedInputs_mem hl old t).1 hm
      exact ⟨_, _, hsin l a b⟩)
    (by
      intro t hm
      obtain ⟨l, a, b, rfl⟩ := (allLinkedInputs_mem hl old t).1 hm
      exact (hl l a).2.2)
  have h3 : L.Perm (h.links.map (Link.reroute [(old, new)])) := by
    refine h2.trans (List.Perm.of_eq ?_)
    apply List.map_congr_left
    intro l hm
    unfold Link.reroute
    by_cases hc : l.src = old
    · have : (l.dst, l.dstPort) ∈ h.allLinkedInputs old :=
        (allLinkedInputs_mem hl old _).2 ⟨l, hm, hc, rfl⟩
      rw [if_pos this]
      simp [hc]
    · have : (l.dst, l.dstPort) ∉ h.allLinkedInputs old := by
        intro hx
        obtain ⟨k, a, b, hk⟩ := (allLinkedInputs_mem hl old _).1 hx
        have h5 := linkedOutputs_single (hsin k a b).1
        have h6 : l ∈ h.links.filter (fun x => x.dst = k.dst && x.dstPort = k.dstPort) := by
          simp only [Prod.mk.injEq] at hk
          simp [List.mem_filter, hm, hk.1, hk.2]
        rw [h5] at h6
        simp only [List.mem_singleton] at h6
        rw [h6] at hc
        exact hc b
      rw [if_neg this]
      have hb : (l.src == old) = false := by simpa using hc
      simp [List.lookup, hb]
  let h' : Hugr Op Meta := { h with links := L }
  have ht' : IsTree h' := ht.congr rfl rfl rfl ht.entry_live rfl
  have hl' : LinksOk h' := by
    intro l hm
    have hm' : l ∈ L := hm
    rw [h3.mem_iff, List.mem_map] at hm'
    obtain ⟨k, hk, rfl⟩ := hm'
    obtain ⟨a, b, c, d⟩ := hl k hk
    unfold Link.reroute
    by_cases hc : k.src = old
    · simp only [hc, List.lookup, beq_self_eq_true, Option.getD_some]
      exact ⟨hnew, (hsin k hk hc).2, c, d⟩
    · have hb : (k.src == old) = false := by simpa using hc
      simp only [List.lookup, hb, Option.getD_none]
      exact ⟨a, b, c, d⟩
  obtain ⟨h4, h5⟩ := C22_remove_subtree I h' ht' hl' old
  obtain ⟨g, hg⟩ := h4.2 ⟨hr.old_live (old, new) (by simp), hr.old_entry (old, new) (by simp)⟩
  obtain ⟨hw, hlg, htg⟩ := h5 g hg
  refine ⟨g, ?_, ?_, htg (hr.old_root (old, new) (by simp)), hlg⟩
  · unfold Hugr.replaceStaticSrc
    rw [h1]
    exact hg
  · refine ⟨?_, hw.parent, ?_, hw.ops, hw.ports, hw.metadata, ?_, hw.roots⟩
    · intro m; rw [hw.live]; simp [h']
    · intro m hm; rw [hw.children m hm]; simp [h']
    · rw [hw.links]
      exact h3.filter _

theorem above_iff_of_eq {p p' : Nat → Option Nat} {live : Nat → Prop}
    (he : ∀ m, live m → p' m = p m) (hup : ∀ m q, live m → p m = some q → live q) {a b : Nat}
    (ha : live a) : Above p' a b ↔ Above p a b := by
  constructor
  · intro h
    induction h with
    | refl => exact .refl _
    | step hp _ ih =>
      rw [he _ ha] at hp
      exact .step hp (ih (hup _ _ ha hp))
  · intro h
    induction h with
    | refl => exact .refl _
    | step hp _ ih => exact .step (by rw [he _ ha]; exact hp) (ih (hup _ _ ha hp))

/-- Parents of nodes that are left are left. -/
theorem SrcReplaced.parent_live {h g : Hugr Op Meta} {P : List (Nat × Nat)} (hs : SrcReplaced h P g)
    (ht : IsTree h) (m q : Nat) (hm : g.live m = true) (hp : h.hier.parent m = some q) :
    g.live q = true := by
  rw [hs.live]
  exact ⟨(ht.parent_live m q hp).2, fun e he ha => ((hs.live m).1 hm).2 e he (.step hp ha)⟩

theorem SrcReplaced.above {h g : Hugr Op Meta} {P : List (Nat × Nat)} (hs : SrcReplaced h P g)
    (ht : IsTree h) {a : Nat} (b : Nat) (ha : g.live a = true) :
    Above g.hier.parent a b ↔ Above h.hier.parent a b :=
  above_iff_of_eq (live := fun m => g.live m = true) hs.parent (hs.parent_live ht) ha

theorem filter_single {α : Type} {p q : α → Bool} {l : List α} {x : α} (hq : q x = true) (hp : p x = true)
    (h : l.filter p = [x]) : (l.filter q).filter p = [x] := by
  rw [List.filter_comm, h]
  simp [hq]

/-- Moving the uses of several nodes. -/
theorem replaceAll_ok (I : OpInfo Op) (P : List (Nat × Nat)) {h : Hugr Op Meta} (ht : IsTree h)
    (hl : LinksOk h) (hr : Replaceable h P) :
    ∃ g, h.replaceAll I P = some g ∧ SrcReplaced h P g ∧ IsTree g ∧ LinksOk g := by
  induction P generalizing h with
  | nil =>
    refine ⟨h, rfl, ⟨by simp, fun _ _ => rfl, by simp, fun _ _ => rfl, fun _ _ => ⟨rfl, rfl⟩,
      fun _ _ => rfl, ?_, rfl, rfl⟩, ht, hl⟩
    have : h.links.map (Link.reroute []) = h.links := by
      rw [List.map_congr_left (g := id) (by intro l _; rfl), List.map_id]
    rw [this, List.filter_eq_self.2]
    intro l hm
    obtain ⟨a, _, c, _⟩ := hl l hm
    rw [a, c]; rfl
  | cons e P ih =>
    obtain ⟨old, new⟩ := e
    have hr1 : Replaceable h [(old, new)] := by
      constructor
      · simp
      · intro e he; simp only [List.mem_singleton] at he; subst he; exact hr.old_live _ (by simp)
      · intro e he; simp only [List.mem_singleton] at he; subst he; exact hr.old_root _ (by simp)
      · intro e he; simp only [List.mem_singleton] at he; subst he; exact hr.old_entry _ (by simp)
      · intro e he d hd _; simp only [List.mem_singleton] at he hd; rw [he, hd]
      · intro e he; simp only [List.mem_singleton] at he; subst he; exact hr.new_live _ (by simp)
      · intro e he d hd; simp only [List.mem_singleton] at he hd; subst he hd
        exact hr.new_apart _ (by simp) _ (by simp)
      · intro e he; simp only [List.mem_singleton] at he; subst he; exact hr.single _ (by simp)
    obtain ⟨g1, h1, h2, h3, h4⟩ := replaceStaticSrc_ok I ht hl hr1
    have hnd := hr.nodup
    rw [List.map_cons, List.nodup_cons] at hnd
    have hold : ∀ d ∈ P, d.1 ≠ old := by
      intro d hd he; exact hnd.1 (List.mem_map.2 ⟨d, hd, he⟩)
    have hlive1 : ∀ m, h.live m = true → ¬ Above h.hier.parent m old → g1.live m = true := by
      intro m a b; rw [h2.live]; exact ⟨a, by simpa using b⟩
    have hdl : ∀ d ∈ P, g1.live d.1 = true := by
      intro d hd
      refine hlive1 _ (hr.old_live d (by simp [hd])) fun ha => ?_
      exact hold d hd (hr.old_apart d (by simp [hd]) (old, new) (by simp) ha)
    have hnl : ∀ d ∈ P, g1.live d.2 = true := by
      intro d hd
      exact hlive1 _ (hr.new_live d (by simp [hd])) (hr.new_apart d (by simp [hd]) (old, new) (by simp))
    have hr2 : Replaceable g1 P := by
      constructor
      · exact hnd.2
      · exact hdl
      · intro d hd; rw [h2.roots.1]; exact hr.old_root d (by simp [hd])
      · intro d hd ha
        rw [h2.roots.2] at ha
        rw [h2.above ht _ (by rw [← h2.roots.2]; exact h3.entry_live)] at ha
        exact hr.old_entry d (by simp [hd]) ha
      · intro d hd c hc ha
        rw [h2.above ht _ (hdl d hd)] at ha
        exact hr.old_apart d (by simp [hd]) c (by simp [hc]) ha
      · exact hnl
      · intro d hd c hc ha
        rw [h2.above ht _ (hnl d hd)] at ha
        exact hr.new_apart d (by simp [hd]) c (by simp [hc]) ha
      · intro d hd l hm hsrc
        have hm' := hm
        rw [h2.links.mem_iff, List.mem_filter, List.mem_map] at hm'
        obtain ⟨⟨k, hk, hkl⟩, hlv⟩ := hm'
        rw [Bool.and_eq_true] at hlv
        have hks : k.src ≠ old := by
          intro hko
          have : l.src = new := by rw [← hkl]; simp [Link.reroute, hko]
          rw [hsrc] at this
          have h5 := hr.new_apart (old, new) (by simp) d (by simp [hd])
          apply h5; simp only; rw [← this]; exact .refl _
        have hkl' : k = l := by
          rw [← hkl]
          have hb : (k.src == old) = false := by simpa using hks
          simp [Link.reroute, List.lookup, hb]
        subst hkl'
        obtain ⟨h5, h6⟩ := hr.single d (by simp [hd]) k hk hsrc
        refine ⟨?_, by rw [(h2.ports _ (hnl d hd)).2]; exact h6⟩
        have h7 := linkedOutputs_single h5
        have hperm : (g1.links.filter fun x => x.dst = k.dst && x.dstPort = k.dstPort).Perm [k] := by
          refine (h2.links.filter _).trans (List.Perm.of_eq ?_)
          apply filter_single (by simp [hlv.1, hlv.2]) (by simp)
          rw [List.filter_map]
          have e1 : ((fun x : Link => decide (x.dst = k.dst) && decide (x.dstPort = k.dstPort)) ∘
              Link.reroute [(old, new)]) =
              (fun x : Link => decide (x.dst = k.dst) && decide (x.dstPort = k.dstPort)) := rfl
          rw [e1, h7]
          simp only [List.map_cons, List.map_nil]
          congr 1
        have h8 := List.perm_singleton.1 hperm
        unfold Hugr.linkedOutputs
        rw [h8]; rfl
    obtain ⟨g, h5, h6, h7, h8⟩ := ih h3 h4 hr2
    refine ⟨g, ?_, ?_, h7, h8⟩
    · rw [Hugr.replaceAll, h1]; exact h5
    · have hg1 : ∀ m, g.live m = true → g1.live m = true := fun m hm => ((h6.live m).1 hm).1
      refine ⟨?_, ?_, ?_, ?_, ?_, ?_, ?_, ?_⟩
      · intro m
        rw [h6.live]
        constructor
        · rintro ⟨a, b⟩
          have a' := (h2.live m).1 a
          refine ⟨a'.1, ?_⟩
          intro e he
          rcases List.mem_cons.1 he with rfl | he'
          · exact a'.2 _ (by simp)
          · rw [← h2.above ht _ a]; exact b e he'
        · rintro ⟨a, b⟩
          have hm : g1.live m = true := hlive1 m a (b (old, new) (by simp))
          refine ⟨hm, ?_⟩
          intro e he
          rw [h2.above ht _ hm]; exact b e (by simp [he])
      · intro m hm; rw [h6.parent m hm, h2.parent m (hg1 m hm)]
      · intro m hm
        rw [h6.children m hm, h2.children m (hg1 m hm), List.filter_filter]
        apply List.filter_congr
        intro c _
        simp only [List.map_cons, List.map_nil, List.mem_cons, List.not_mem_nil, or_false, not_or]
        by_cases ha : c = old <;> by_cases hb : c ∈ P.map Prod.fst <;> simp [ha, hb]
      · intro m hm; rw [h6.ops m hm, h2.ops m (hg1 m hm)]
      · intro m hm
        rw [(h6.ports m hm).1, (h6.ports m hm).2]
        exact h2.ports m (hg1 m hm)
      · intro m hm; rw [h6.metadata m hm, h2.metadata m (hg1 m hm)]
      · refine h6.links.trans (((h2.links.map _).filter _).trans (List.Perm.of_eq ?_))
        have hnP : P.lookup new = none := by
          rw [lookup_none_iff]
          intro hx
          obtain ⟨d, hd, he⟩ := List.mem_map.1 hx
          apply hr.new_apart (old, new) (by simp) d (by simp [hd])
          simp only; rw [he]; exact .refl _
        have hcomp : (Link.reroute P ∘ Link.reroute [(old, new)]) = Link.reroute ((old, new) :: P) := by
          funext k
          simp only [Function.comp, Link.reroute, List.lookup_cons, List.lookup_nil]
          by_cases hk : k.src = old
          · have hb : (k.src == old) = true := by simpa using hk
            simp [hb, hnP]
          · have hb : (k.src == old) = false := by simpa using hk
            simp [hb]
        rw [List.filter_map, List.filter_filter, List.filter_map, List.map_map, hcomp, List.filter_map]
        congr 1
        apply List.filter_congr
        intro k _
        rw [← hcomp]
        simp only [Function.comp]
        generalize Link.reroute [(old, new)] k = x
        have h9 : (Link.reroute P x).dst = x.dst := rfl
        rw [h9]
        by_cases hd : g.live x.dst = true
        · by_cases hsx : g.live (Link.reroute P x).src = true
          · have : g1.live x.src = true := by
              cases hlk : P.lookup x.src with
              | none =>
                apply hg1
                simpa [Link.reroute, hlk] using hsx
              | some v => exact hdl _ (mem_of_lookup hlk)
            simp [hd, hsx, this, hg1 _ hd]
          · simp [hsx]
        · simp [hd]
      · rw [h6.roots.1, h6.roots.2]; exact h2.roots

end Verif.Graph
