import Verif.Patch.LinkLemmas

/-!
# The loops of `InlineDFG`
-/
namespace Verif.Patch

open Verif.Graph Verif.Ops Verif.Passes Verif.Validate

variable {Meta : Type}

theorem each_append {G α : Type} (f : G → α → Option G) (g : G) (xs ys : List α) :
    each f g (xs ++ ys) = match each f g xs with
      | none => none
      | some g' => each f g' ys := by
  induction xs generalizing g with
  | nil => rfl
  | cons x xs ih =>
    simp only [List.cons_append, each]
    cases f g x with
    | none => rfl
    | some g' => exact ih g'

/-- Elements that change nothing can be left out. -/
theorem each_filter {G α : Type} (f : G → α → Option G) (p : α → Bool)
    (hf : ∀ g x, p x = false → f g x = some g) (g : G) (xs : List α) :
    each f g xs = each f g (xs.filter p) := by
  induction xs generalizing g with
  | nil => rfl
  | cons x xs ih =>
    by_cases hp : p x = true
    · simp only [List.filter_cons_of_pos hp, each]
      cases f g x with
      | none => rfl
      | some g' => exact ih g'
    · rw [List.filter_cons_of_neg (by simpa using hp), each, hf g x (by simpa using hp)]
      exact ih g

/-! ## Order edges into the DFG node -/

theorem outputNeighbours_append (h : Hugr Ops.Op Meta) (ls : List Link) (i : Nat)
    (hi : ∀ l ∈ ls, l.src ≠ i) :
    outputNeighbours (SetLinks h (h.links ++ ls)) i = outputNeighbours h i := by
  unfold outputNeighbours
  have h0 : ls.filter (fun l => decide (l.src = i)) = [] := by
    rw [List.filter_eq_nil_iff]; simpa using hi
  rw [setLinks_links, List.filter_append, h0, List.append_nil]

theorem orderIns_eq (h : Hugr Ops.Op Meta) (i : Nat) (preds : List (Nat × Nat))
    (hs : ∀ s ∈ preds, HasOrder h s.1 .outgoing ∧ s.1 ≠ i)
    (ht : ∀ t ∈ outputNeighbours h i, HasOrder h t .incoming) :
    each (fun g s => orderTo g s.1 (outputNeighbours g i)) h preds =
      some (SetLinks h (h.links ++ preds.flatMap fun s => (outputNeighbours h i).map (ordLink h s.1))) := by
  induction preds generalizing h with
  | nil => simp [each]
  | cons s preds ih =>
    have h1 := hs s List.mem_cons_self
    simp only [each, orderTo_eq h1.1 _ ht]
    have hne : ∀ l ∈ (outputNeighbours h i).map (ordLink h s.1), l.src ≠ i := by
      intro l hl
      obtain ⟨t, _, rfl⟩ := List.mem_map.1 hl
      exact h1.2
    have ho := outputNeighbours_append h _ i hne
    rw [ih _ (fun x hx => ⟨(hs x (List.mem_cons_of_mem _ hx)).1.setLinks _,
      (hs x (List.mem_cons_of_mem _ hx)).2⟩) (by rw [ho]; exact fun t hm => (ht t hm).setLinks _), ho]
    simp

/-! ## Inputs -/

/-- What the loop over the inputs needs. -/
structure InOk (g : Hugr Ops.Op Meta) (d i : Nat) (succs : List (Nat × Nat)) (ps : List Nat) : Prop where
  liveD : g.live d = true
  liveI : g.live i = true
  range : ∀ k ∈ ps, k < g.ins d ∧ k < g.outs i
  count : ∀ k ∈ ps, inCount g.links d k = 1
  loop : ∀ l ∈ g.links, l.src = i → l.dst ≠ d
  ends : ∀ l ∈ g.links, l.src = i → CanEnd g l.dst l.dstPort
  starts : ∀ l ∈ g.links, l.dst = d → CanStart g l.src l.srcPort ∧
    (l.dstPort ∈ ps → HasOrder g l.src .outgoing)
  succs : ∀ t ∈ succs, HasOrder g t.1 .incoming ∧ t.1 ≠ d

/-- The links after the loop over the inputs. -/
def AfterIn (g : Hugr Ops.Op Meta) (d i : Nat) (succs : List (Nat × Nat)) (ps : List Nat) (l : Link) :
    Prop :=
  (l ∈ g.links ∧ ¬ (l.dst = d ∧ l.dstPort ∈ ps) ∧ ¬ (l.src = i ∧ l.srcPort ∈ ps)) ∨
  ∃ k ∈ ps, ∃ s sp, ⟨s, sp, d, k⟩ ∈ g.links ∧
    ((l.src = s ∧ l.srcPort = sp ∧ ⟨i, k, l.dst, l.dstPort⟩ ∈ g.links) ∨ ∃ t ∈ succs, l = ordLink g s t.1)

theorem countP_targets (ls : List Link) (i k s sp n port : Nat) :
    (((ls.filter fun l => l.src = i && l.srcPort = k).map fun l => (l.dst, l.dstPort)).map
      fun t => (⟨s, sp, t.1, t.2⟩ : Link)).countP (fun l => l.dst = n && l.dstPort = port) +
    (ls.filter fun l => !l.at i .outgoing k).countP (fun l => l.dst = n && l.dstPort = port) =
    ls.countP fun l => l.dst = n && l.dstPort = port := by
  induction ls with
  | nil => rfl
  | cons l ls ih =>
    by_cases hl : (l.src = i ∧ l.srcPort = k)
    · have h1 : (decide (l.src = i) && decide (l.srcPort = k)) = true := by simp [hl]
      have h2 : (!l.at i .outgoing k) = false := by simp [Link.at, hl]
      rw [List.filter_cons_of_pos (by exact h1), List.filter_cons_of_neg (by simp [h2])]
      simp only [List.map_cons, List.countP_cons]
      rw [← ih]
      omega
    · have h1 : (decide (l.src = i) && decide (l.srcPort = k)) = false := by
        simpa using hl
      have h2 : (!l.at i .outgoing k) = true := by
        simp only [Link.at, Bool.not_eq_true', Bool.and_eq_false_imp, beq_iff_eq, beq_eq_false_iff_ne]
        exact fun h1 h2 => hl ⟨h1, h2⟩
      rw [List.filter_cons_of_neg (by simp [h1]), List.filter_cons_of_pos (by exact h2)]
      simp only [List.countP_cons]
      rw [← ih]
      omega

theorem inlineIn_step {g : Hugr Ops.Op Meta} {d i othIn : Nat} {succs : List (Nat × Nat)} {ps : List Nat}
    {k : Nat} (hk : InOk g d i succs (k :: ps)) (hne : k ≠ othIn) :
    ∃ ls, inlineIn d i othIn succs g k = some (SetLinks g ls) ∧
      (∀ l, l ∈ ls ↔ AfterIn g d i succs [k] l) ∧
      (∀ n port, n ≠ d → (∀ t ∈ succs, ¬ (t.1 = n ∧ lastPort (g.ops n) .incoming = port)) →
        inCount ls n port = inCount g.links n port) ∧
      (∀ port, port ≠ k → inCount ls d port = inCount g.links d port) := by
  obtain ⟨s, sp, hsl, huniq⟩ := singleLinked_of_count (hk.count k List.mem_cons_self)
  have hlink : (⟨s, sp, d, k⟩ : Link) ∈ g.links := (huniq s sp).2 ⟨rfl, rfl⟩
  have hsd := hk.starts _ hlink rfl
  have hrange := hk.range k List.mem_cons_self
  unfold inlineIn
  rw [if_neg hne, hsl]
  simp only []
  rw [disconnect_eq hk.liveD hrange.1]
  simp only []
  rw [disconnect_eq (h := SetLinks g (g.links.filter fun l => !l.at d .incoming k)) hk.liveI hrange.2]
  simp only [setLinks_setLinks, setLinks_links]
  set L1 := g.links.filter fun l => !l.at d .incoming k with hL1
  set L2 := L1.filter fun l => !l.at i .outgoing k with hL2
  have hmem1 : ∀ l, l ∈ L1 ↔ l ∈ g.links ∧ ¬ (l.dst = d ∧ l.dstPort = k) := by
    intro l; rw [hL1, List.mem_filter]; simp [Link.at, imp_iff_not_or]
  have hmem2 : ∀ l, l ∈ L2 ↔ l ∈ g.links ∧ ¬ (l.dst = d ∧ l.dstPort = k) ∧ ¬ (l.src = i ∧ l.srcPort = k) := by
    intro l; rw [hL2, List.mem_filter, hmem1]; simp [Link.at, imp_iff_not_or, and_assoc]
  set ts := (SetLinks g L1).linkedInputs i k with hts
  have hmemt : ∀ t, t ∈ ts ↔ (⟨i, k, t.1, t.2⟩ : Link) ∈ g.links := by
    intro t
    rw [hts, mem_linkedInputs, setLinks_links, hmem1]
    constructor
    · exact fun h => h.1
    · intro h
      exact ⟨h, fun hh => hk.loop _ h rfl hh.1⟩
  rw [connectEach_eq (h := SetLinks g L2) (by exact hsd.1) ts
    (by intro t ht; exact hk.ends _ ((hmemt t).1 ht) rfl)]
  simp only [setLinks_setLinks, setLinks_links]
  rw [orderTo_eq ((hsd.2 List.mem_cons_self).setLinks _) _
    (by
      intro t ht
      obtain ⟨x, hx, rfl⟩ := List.mem_map.1 ht
      exact (hk.succs x hx).1.setLinks _)]
  refine ⟨_, rfl, ?_, ?_, ?_⟩
  · intro l
    simp only [setLinks_links, ordLink_setLinks, List.mem_append, List.mem_map, hmem2, AfterIn,
      List.mem_singleton, exists_eq_left]
    constructor
    · rintro ((h | ⟨t, ht, rfl⟩) | ⟨t, ⟨x, hx, rfl⟩, rfl⟩)
      · exact .inl h
      · exact .inr ⟨s, sp, hlink, .inl ⟨rfl, rfl, (hmemt t).1 ht⟩⟩
      · exact .inr ⟨s, sp, hlink, .inr ⟨x, hx, rfl⟩⟩
    · rintro (h | ⟨s', sp', hl', h⟩)
      · exact .inl (.inl h)
      · obtain ⟨rfl, rfl⟩ := (huniq s' sp').1 hl'
        rcases h with ⟨rfl, rfl, h⟩ | ⟨x, hx, rfl⟩
        · exact .inl (.inr ⟨(l.dst, l.dstPort), (hmemt _).2 h, rfl⟩)
        · exact .inr ⟨x.1, ⟨x, hx, rfl⟩, rfl⟩
  · intro n port hnd hns
    simp only [setLinks_links, ordLink_setLinks, inCount, List.countP_append]
    have h0 : List.countP (fun l : Link => decide (l.dst = n) && decide (l.dstPort = port))
        ((succs.map Prod.fst).map (ordLink g s)) = 0 := by
      rw [List.countP_eq_zero]
      intro l hl
      obtain ⟨t, ht, rfl⟩ := List.mem_map.1 hl
      obtain ⟨x, hx, rfl⟩ := List.mem_map.1 ht
      rw [Bool.and_eq_true, decide_eq_true_eq, decide_eq_true_eq]
      rintro ⟨h1, h2⟩
      simp only [ordLink] at h1 h2
      exact hns x hx ⟨h1, by rw [← h1]; exact h2⟩
    have h1 := countP_targets L1 i k s sp n port
    have h2 : L1.countP (fun l => decide (l.dst = n) && decide (l.dstPort = port)) =
        g.links.countP (fun l => decide (l.dst = n) && decide (l.dstPort = port)) := by
      rw [hL1, List.countP_filter]
      apply List.countP_congr
      intro l _
      simp only [Link.at, Bool.and_eq_true, decide_eq_true_eq, Bool.not_eq_true', Bool.and_eq_false_imp,
        beq_iff_eq, beq_eq_false_iff_ne]
      constructor
      · exact fun h => h.1
      · intro h; exact ⟨h, fun hh => absurd (h.1.symm.trans hh) hnd⟩
    rw [h0, ← h2, ← h1, hts]
    simp only [Hugr.linkedInputs, setLinks_links, hL2]
    omega
  · intro port hport
    simp only [setLinks_links, ordLink_setLinks, inCount, List.countP_append]
    have h0 : List.countP (fun l : Link => decide (l.dst = d) && decide (l.dstPort = port))
        ((succs.map Prod.fst).map (ordLink g s)) = 0 := by
      rw [List.countP_eq_zero]
      intro l hl
      obtain ⟨t, ht, rfl⟩ := List.mem_map.1 hl
      obtain ⟨x, hx, rfl⟩ := List.mem_map.1 ht
      rw [Bool.and_eq_true, decide_eq_true_eq, decide_eq_true_eq]
      rintro ⟨h1, h2⟩
      simp only [ordLink] at h1 h2
      exact (hk.succs x hx).2 h1
    have h1 : List.countP (fun l : Link => decide (l.dst = d) && decide (l.dstPort = port))
        (ts.map fun t => ⟨s, sp, t.1, t.2⟩) = 0 := by
      rw [List.countP_eq_zero]
      intro l hl
      obtain ⟨t, ht, rfl⟩ := List.mem_map.1 hl
      rw [Bool.and_eq_true, decide_eq_true_eq, decide_eq_true_eq]
      rintro ⟨h1, h2⟩
      exact hk.loop _ ((hmemt t).1 ht) rfl h1
    rw [h0, h1, hL2, hL1, List.filter_filter, List.countP_filter]
    simp only [Nat.add_zero]
    apply List.countP_congr
    intro l hl
    simp only [Link.at, Bool.and_eq_true, decide_eq_true_eq, Bool.not_eq_true', Bool.and_eq_false_imp,
      beq_iff_eq, beq_eq_false_iff_ne]
    constructor
    · exact fun h => h.1
    · rintro ⟨h1, h2⟩
      refine ⟨⟨h1, h2⟩, fun hh => absurd h1 (hk.loop _ hl hh), fun _ => by rw [h2]; exact hport⟩

theorem inlineIn_ok {g : Hugr Ops.Op Meta} {d i : Nat} {succs : List (Nat × Nat)} {ps : List Nat}
    {k : Nat} (hk : InOk g d i succs (k :: ps)) (hnk : k ∉ ps) {ls : List Link}
    (hm : ∀ l, l ∈ ls ↔ AfterIn g d i succs [k] l)
    (hc : ∀ port, port ≠ k → inCount ls d port = inCount g.links d port) :
    InOk (SetLinks g ls) d i succs ps := by
  have hstart : ∀ s sp, (⟨s, sp, d, k⟩ : Link) ∈ g.links → s ≠ i :=
    fun s sp hl hs => hk.loop _ hl hs rfl
  refine ⟨hk.liveD, hk.liveI, fun x hx => hk.range x (List.mem_cons_of_mem _ hx), ?_, ?_, ?_, ?_,
    fun t ht => ⟨(hk.succs t ht).1.setLinks _, (hk.succs t ht).2⟩⟩
  · intro x hx
    rw [setLinks_links, hc x (by rintro rfl; exact hnk hx)]
    exact hk.count x (List.mem_cons_of_mem _ hx)
  · intro l hl hsrc
    rcases (hm l).1 hl with ⟨h, _⟩ | ⟨x, _, s, sp, hs, ⟨h1, h2, h3⟩ | ⟨t, ht, rfl⟩⟩
    · exact hk.loop l h hsrc
    · exact hk.loop ⟨i, x, l.dst, l.dstPort⟩ h3 rfl
    · exact (hk.succs t ht).2
  · intro l hl hsrc
    rcases (hm l).1 hl with ⟨h, _⟩ | ⟨x, hx, s, sp, hs, ⟨h1, h2, h3⟩ | ⟨t, ht, rfl⟩⟩
    · exact hk.ends l h hsrc
    · exact hk.ends ⟨i, x, l.dst, l.dstPort⟩ h3 rfl
    · exact ⟨(hk.succs t ht).1.live, (hk.succs t ht).1.range⟩
  · intro l hl hdst
    rcases (hm l).1 hl with ⟨h, _⟩ | ⟨x, hx, s, sp, hs, ⟨h1, h2, h3⟩ | ⟨t, ht, rfl⟩⟩
    · exact ⟨(hk.starts l h hdst).1, fun hp => ((hk.starts l h hdst).2 (List.mem_cons_of_mem _ hp)).setLinks _⟩
    · exact absurd hdst (hk.loop ⟨i, x, l.dst, l.dstPort⟩ h3 rfl)
    · exact absurd hdst (hk.succs t ht).2

theorem inlineIns_eq {d i othIn : Nat} {succs : List (Nat × Nat)} (ps : List Nat) :
    ∀ {g : Hugr Ops.Op Meta}, InOk g d i succs ps → ps.Nodup → othIn ∉ ps →
    ∃ ls, each (inlineIn d i othIn succs) g ps = some (SetLinks g ls) ∧
      (∀ l, l ∈ ls ↔ AfterIn g d i succs ps l) ∧
      (∀ n port, n ≠ d → (∀ t ∈ succs, ¬ (t.1 = n ∧ lastPort (g.ops n) .incoming = port)) →
        inCount ls n port = inCount g.links n port) := by
  induction ps with
  | nil =>
    intro g _ _ _
    refine ⟨g.links, by simp [each], fun l => ?_, fun _ _ _ _ => rfl⟩
    simp [AfterIn]
  | cons k ps ih =>
    intro g hk hnd hno
    obtain ⟨ls, he, hm, hc, hcd⟩ := inlineIn_step (othIn := othIn) hk (fun h => hno (by simp [h]))
    have hnk := (List.nodup_cons.1 hnd).1
    have hk' := inlineIn_ok hk hnk hm hcd
    obtain ⟨ls', he', hm', hc'⟩ := ih hk' (List.nodup_cons.1 hnd).2
      (fun h => hno (List.mem_cons_of_mem _ h))
    refine ⟨ls', by simp only [each, he]; exact he', fun l => ?_, fun n port hn hs => ?_⟩
    swap
    · rw [hc' n port hn hs, setLinks_links, hc n port hn hs]
    rw [hm']
    have hstart : ∀ s sp x, (⟨s, sp, d, x⟩ : Link) ∈ g.links → s ≠ i :=
      fun s sp x hl hs => hk.loop _ hl hs rfl
    -- links into the DFG node and out of its input
    have hd : ∀ s sp x, x ≠ k → ((⟨s, sp, d, x⟩ : Link) ∈ ls ↔ ⟨s, sp, d, x⟩ ∈ g.links) := by
      intro s sp x hx
      rw [hm]
      constructor
      · rintro (⟨h, _⟩ | ⟨y, _, s', sp', hs', ⟨h1, h2, h3⟩ | ⟨t, ht, he⟩⟩)
        · exact h
        · exact absurd rfl (hk.loop _ h3 rfl)
        · simp only [ordLink, Link.mk.injEq] at he
          exact absurd he.2.2.1.symm (hk.succs t ht).2
      · intro h
        exact .inl ⟨h, fun hh => hx (List.mem_singleton.1 hh.2), fun hh => hstart _ _ _ h hh.1⟩
    have hi : ∀ x t tp, x ≠ k → ((⟨i, x, t, tp⟩ : Link) ∈ ls ↔ ⟨i, x, t, tp⟩ ∈ g.links) := by
      intro x t tp hx
      rw [hm]
      constructor
      · rintro (⟨h, _⟩ | ⟨y, _, s', sp', hs', ⟨h1, h2, h3⟩ | ⟨t, ht, he⟩⟩)
        · exact h
        · exact absurd h1.symm (hstart _ _ _ hs')
        · simp only [ordLink, Link.mk.injEq] at he
          exact absurd he.1.symm (hstart _ _ _ hs')
      · intro h
        exact .inl ⟨h, fun hh => hk.loop _ h rfl hh.1, fun hh => hx (List.mem_singleton.1 hh.2)⟩
    have hne : ∀ x ∈ ps, x ≠ k := fun x hx hxk => hnk (hxk ▸ hx)
    unfold AfterIn
    simp only [setLinks_links, ordLink_setLinks]
    constructor
    · rintro (⟨h, h1, h2⟩ | ⟨x, hx, s, sp, hs, hor⟩)
      · rcases (hm l).1 h with ⟨h, h3, h4⟩ | ⟨y, hy, s, sp, hs, hor⟩
        · refine .inl ⟨h, ?_, ?_⟩
          · rintro ⟨e1, e2⟩
            rcases List.mem_cons.1 e2 with e2 | e2
            · exact h3 ⟨e1, by simp [e2]⟩
            · exact h1 ⟨e1, e2⟩
          · rintro ⟨e1, e2⟩
            rcases List.mem_cons.1 e2 with e2 | e2
            · exact h4 ⟨e1, by simp [e2]⟩
            · exact h2 ⟨e1, e2⟩
        · exact .inr ⟨y, List.mem_cons.2 (.inl (List.mem_singleton.1 hy)), s, sp, hs, hor⟩
      · refine .inr ⟨x, List.mem_cons_of_mem _ hx, s, sp, (hd s sp x (hne x hx)).1 hs, ?_⟩
        rcases hor with ⟨e1, e2, e3⟩ | hor
        · exact .inl ⟨e1, e2, (hi x _ _ (hne x hx)).1 e3⟩
        · exact .inr hor
    · rintro (⟨h, h1, h2⟩ | ⟨x, hx, s, sp, hs, hor⟩)
      · refine .inl ⟨(hm l).2 (.inl ⟨h, ?_, ?_⟩), ?_, ?_⟩
        · exact fun e => h1 ⟨e.1, by simp [List.mem_singleton.1 e.2]⟩
        · exact fun e => h2 ⟨e.1, by simp [List.mem_singleton.1 e.2]⟩
        · exact fun e => h1 ⟨e.1, by simp [e.2]⟩
        · exact fun e => h2 ⟨e.1, by simp [e.2]⟩
      · rcases List.mem_cons.1 hx with rfl | hx
        · refine .inl ⟨(hm l).2 (.inr ⟨x, by simp, s, sp, hs, hor⟩), ?_, ?_⟩
          · rintro ⟨e1, e2⟩
            rcases hor with ⟨_, _, e3⟩ | ⟨t, ht, rfl⟩
            · exact hk.loop _ e3 rfl e1
            · exact (hk.succs t ht).2 e1
          · rintro ⟨e1, e2⟩
            rcases hor with ⟨e3, _⟩ | ⟨t, ht, rfl⟩
            · exact hstart _ _ _ hs (e3.symm.trans e1)
            · exact hstart _ _ _ hs e1
        · refine .inr ⟨x, hx, s, sp, (hd s sp x (hne x hx)).2 hs, ?_⟩
          rcases hor with ⟨e1, e2, e3⟩ | hor
          · exact .inl ⟨e1, e2, (hi x _ _ (hne x hx)).2 e3⟩
          · exact .inr hor

/-! ## Order edges out of the DFG node -/

theorem inputNeighbours_append (h : Hugr Ops.Op Meta) (ls : List Link) (o : Nat)
    (ho : ∀ l ∈ ls, l.dst ≠ o) :
    inputNeighbours (SetLinks h (h.links ++ ls)) o = inputNeighbours h o := by
  unfold inputNeighbours
  have h0 : ls.filter (fun l => decide (l.dst = o)) = [] := by
    rw [List.filter_eq_nil_iff]; simpa using ho
  rw [setLinks_links, List.filter_append, h0, List.append_nil]

theorem orderOuts_eq (h : Hugr Ops.Op Meta) (o : Nat) (succs : List (Nat × Nat))
    (ht : ∀ t ∈ succs, HasOrder h t.1 .incoming ∧ t.1 ≠ o)
    (hs : ∀ s ∈ inputNeighbours h o, HasOrder h s .outgoing) :
    each (fun g t => orderFrom g (inputNeighbours g o) t.1) h succs =
      some (SetLinks h (h.links ++ succs.flatMap fun t =>
        (inputNeighbours h o).map fun s => ordLink h s t.1)) := by
  induction succs generalizing h with
  | nil => simp [each]
  | cons t succs ih =>
    have h1 := ht t List.mem_cons_self
    simp only [each, orderFrom_eq h1.1 _ hs]
    have hne : ∀ l ∈ (inputNeighbours h o).map (fun s => ordLink h s t.1), l.dst ≠ o := by
      intro l hl
      obtain ⟨t, _, rfl⟩ := List.mem_map.1 hl
      exact h1.2
    have ho := inputNeighbours_append h _ o hne
    rw [ih _ (fun x hx => ⟨(ht x (List.mem_cons_of_mem _ hx)).1.setLinks _,
      (ht x (List.mem_cons_of_mem _ hx)).2⟩) (by rw [ho]; exact fun t hm => (hs t hm).setLinks _), ho]
    simp

/-! ## Outputs -/

/-- What the loop over the outputs needs. -/
structure OutOk (g : Hugr Ops.Op Meta) (d o : Nat) (preds : List (Nat × Nat)) (ps : List Nat) : Prop where
  liveD : g.live d = true
  liveO : g.live o = true
  range : ∀ k ∈ ps, k < g.ins o ∧ k < g.outs d
  count : ∀ k ∈ ps, inCount g.links o k = 1
  loop : ∀ l ∈ g.links, l.src = d → l.dst ≠ o
  ends : ∀ l ∈ g.links, l.src = d → CanEnd g l.dst l.dstPort ∧
    (l.srcPort ∈ ps → HasOrder g l.dst .incoming)
  starts : ∀ l ∈ g.links, l.dst = o → CanStart g l.src l.srcPort
  preds : ∀ t ∈ preds, HasOrder g t.1 .outgoing ∧ t.1 ≠ d

/-- The links after the loop over the outputs. -/
def AfterOut (g : Hugr Ops.Op Meta) (d o : Nat) (preds : List (Nat × Nat)) (ps : List Nat) (l : Link) :
    Prop :=
  (l ∈ g.links ∧ ¬ (l.dst = o ∧ l.dstPort ∈ ps) ∧ ¬ (l.src = d ∧ l.srcPort ∈ ps)) ∨
  ∃ k ∈ ps, ∃ s sp t tp, ⟨s, sp, o, k⟩ ∈ g.links ∧ ⟨d, k, t, tp⟩ ∈ g.links ∧
    (l = ⟨s, sp, t, tp⟩ ∨ ∃ x ∈ preds, l = ordLink g x.1 t)

/-- The loop over what is linked to an output. -/
theorem outTargets_eq (g : Hugr Ops.Op Meta) (s sp : Nat) (preds : List Nat) (ts : List (Nat × Nat))
    (hs : CanStart g s sp) (hp : ∀ x ∈ preds, HasOrder g x .outgoing)
    (ht : ∀ t ∈ ts, CanEnd g t.1 t.2 ∧ HasOrder g t.1 .incoming) :
    each (inlineTarget s sp preds) g ts =
    some (SetLinks g (g.links ++ ts.flatMap fun t =>
      ⟨s, sp, t.1, t.2⟩ :: preds.map fun x => ordLink g x t.1)) := by
  induction ts generalizing g with
  | nil => simp [each]
  | cons t ts ih =>
    obtain ⟨h1, h2⟩ := ht t List.mem_cons_self
    simp only [each, inlineTarget]
    rw [connect_eq (l := ⟨s, sp, t.1, t.2⟩) hs h1]
    simp only []
    rw [orderFrom_eq (h2.setLinks _) preds fun x hx => (hp x hx).setLinks _]
    simp only [setLinks_setLinks, setLinks_links, ordLink_setLinks]
    have := ih (SetLinks g (g.links ++ [(⟨s, sp, t.1, t.2⟩ : Link)] ++ preds.map fun x => ordLink g x t.1))
      hs (fun x hx => (hp x hx).setLinks _) fun x hx =>
        ⟨(ht x (List.mem_cons_of_mem _ hx)).1, (ht x (List.mem_cons_of_mem _ hx)).2.setLinks _⟩
    simp only [this]
    simp

theorem countP_outTargets (g : Hugr Ops.Op Meta) (s sp : Nat) (preds : List Nat) (ts : List (Nat × Nat))
    {n port : Nat} (hp : ∀ t ∈ ts, t.1 = n → port ≠ lastPort (g.ops n) .incoming) :
    (ts.flatMap fun t => (⟨s, sp, t.1, t.2⟩ : Link) :: preds.map fun x => ordLink g x t.1).countP
      (fun l => l.dst = n && l.dstPort = port) =
    (ts.map fun t => (⟨s, sp, t.1, t.2⟩ : Link)).countP (fun l => l.dst = n && l.dstPort = port) := by
  induction ts with
  | nil => rfl
  | cons t ts ih =>
    have h0 : (preds.map fun x => ordLink g x t.1).countP (fun l => l.dst = n && l.dstPort = port) = 0 := by
      rw [List.countP_eq_zero]
      intro l hl
      obtain ⟨x, _, rfl⟩ := List.mem_map.1 hl
      rw [Bool.and_eq_true, decide_eq_true_eq, decide_eq_true_eq]
      rintro ⟨h1, h2⟩
      simp only [ordLink] at h1 h2
      exact hp t List.mem_cons_self h1 (by rw [← h2, h1])
    rw [List.flatMap_cons, List.map_cons, List.countP_append, List.countP_cons, List.countP_cons, h0,
      ih fun t ht => hp t (List.mem_cons_of_mem _ ht)]
    omega

theorem inlineOut_step {g : Hugr Ops.Op Meta} {d o othOut : Nat} {preds : List (Nat × Nat)}
    {ps : List Nat} {k : Nat} (hk : OutOk g d o preds (k :: ps)) (hne : k ≠ othOut) :
    ∃ ls, inlineOut d o othOut preds g k = some (SetLinks g ls) ∧
      (∀ l, l ∈ ls ↔ AfterOut g d o preds [k] l) ∧
      (∀ port, port ≠ k → inCount ls o port = inCount g.links o port) ∧
      (∀ n port, n ≠ o →
        (∀ l ∈ g.links, l.src = d → l.dst = n → port ≠ lastPort (g.ops n) .incoming) →
        inCount ls n port = inCount g.links n port) := by
  obtain ⟨s, sp, hsl, huniq⟩ := singleLinked_of_count (hk.count k List.mem_cons_self)
  have hlink : (⟨s, sp, o, k⟩ : Link) ∈ g.links := (huniq s sp).2 ⟨rfl, rfl⟩
  have hsd := hk.starts _ hlink rfl
  have hsne : s ≠ d := fun h => hk.loop _ hlink h rfl
  have hrange := hk.range k List.mem_cons_self
  unfold inlineOut
  rw [if_neg hne, hsl]
  simp only []
  rw [disconnect_eq hk.liveO hrange.1]
  simp only []
  set L1 := g.links.filter fun l => !l.at o .incoming k with hL1
  have hmem1 : ∀ l, l ∈ L1 ↔ l ∈ g.links ∧ ¬ (l.dst = o ∧ l.dstPort = k) := by
    intro l; rw [hL1, List.mem_filter]; simp [Link.at, imp_iff_not_or]
  set ts := (SetLinks g L1).linkedInputs d k with hts
  have hmemt : ∀ t, t ∈ ts ↔ (⟨d, k, t.1, t.2⟩ : Link) ∈ g.links := by
    intro t
    rw [hts, mem_linkedInputs, setLinks_links, hmem1]
    constructor
    · exact fun h => h.1
    · intro h
      exact ⟨h, fun hh => hk.loop _ h rfl hh.1⟩
  rw [outTargets_eq (SetLinks g L1) s sp (preds.map Prod.fst) ts hsd
    (by
      intro x hx
      obtain ⟨y, hy, rfl⟩ := List.mem_map.1 hx
      exact (hk.preds y hy).1.setLinks _)
    (by
      intro t ht
      have := hk.ends _ ((hmemt t).1 ht) rfl
      exact ⟨this.1, (this.2 List.mem_cons_self).setLinks _⟩)]
  simp only [setLinks_setLinks, setLinks_links, ordLink_setLinks]
  rw [disconnect_set hk.liveD hrange.2]
  have hall : ∀ l ∈ ts.flatMap (fun t => (⟨s, sp, t.1, t.2⟩ : Link) :: (preds.map Prod.fst).map
      fun x => ordLink g x t.1), l.src ≠ d ∧ l.dst ≠ o := by
    intro l hl
    obtain ⟨t, ht, hl⟩ := List.mem_flatMap.1 hl
    have hto := hk.loop _ ((hmemt t).1 ht) rfl
    rcases List.mem_cons.1 hl with rfl | hl
    · exact ⟨hsne, hto⟩
    · obtain ⟨x, hx, rfl⟩ := List.mem_map.1 hl
      obtain ⟨y, hy, rfl⟩ := List.mem_map.1 hx
      exact ⟨(hk.preds y hy).2, hto⟩
  refine ⟨_, rfl, ?_, ?_, ?_⟩
  · intro l
    simp only [setLinks_links, List.mem_filter, List.mem_append, hmem1, AfterOut, Link.at,
      List.mem_singleton, exists_eq_left, Bool.not_eq_true', Bool.and_eq_false_imp, beq_iff_eq,
      beq_eq_false_iff_ne]
    constructor
    · rintro ⟨⟨h1, h2⟩ | h, h3⟩
      · exact .inl ⟨h1, h2, fun e => h3 e.1 e.2⟩
      · obtain ⟨t, ht, hl⟩ := List.mem_flatMap.1 h
        refine .inr ⟨s, sp, t.1, t.2, hlink, (hmemt t).1 ht, ?_⟩
        rcases List.mem_cons.1 hl with rfl | hl
        · exact .inl rfl
        · obtain ⟨x, hx, rfl⟩ := List.mem_map.1 hl
          obtain ⟨y, hy, rfl⟩ := List.mem_map.1 hx
          exact .inr ⟨y, hy, rfl⟩
    · rintro (⟨h1, h2, h3⟩ | ⟨s', sp', t, tp, hs', ht', h⟩)
      · exact ⟨.inl ⟨h1, h2⟩, fun e1 e2 => h3 ⟨e1, e2⟩⟩
      · obtain ⟨rfl, rfl⟩ := (huniq s' sp').1 hs'
        have hm : l ∈ ts.flatMap (fun t => (⟨s', sp', t.1, t.2⟩ : Link) :: (preds.map Prod.fst).map
            fun x => ordLink g x t.1) := by
          refine List.mem_flatMap.2 ⟨(t, tp), (hmemt _).2 ht', ?_⟩
          rcases h with rfl | ⟨x, hx, rfl⟩
          · exact List.mem_cons_self
          · exact List.mem_cons_of_mem _ (List.mem_map.2 ⟨x.1, List.mem_map.2 ⟨x, hx, rfl⟩, rfl⟩)
        exact ⟨.inr hm, fun e => absurd e (hall l hm).1⟩
  · intro port hport
    simp only [inCount, setLinks_links]
    rw [List.filter_append, List.countP_append, hL1, List.filter_filter, List.countP_filter]
    have h0 : List.countP (fun l : Link => decide (l.dst = o) && decide (l.dstPort = port))
        ((ts.flatMap (fun t => (⟨s, sp, t.1, t.2⟩ : Link) :: (preds.map Prod.fst).map
          fun x => ordLink g x t.1)).filter fun l => !l.at d .outgoing k) = 0 := by
      rw [List.countP_eq_zero]
      intro l hl
      rw [Bool.and_eq_true, decide_eq_true_eq, decide_eq_true_eq]
      exact fun h => (hall l (List.mem_filter.1 hl).1).2 h.1
    rw [h0, Nat.add_zero]
    apply List.countP_congr
    intro l hl
    simp only [Link.at, Bool.and_eq_true, decide_eq_true_eq, Bool.not_eq_true', Bool.and_eq_false_imp,
      beq_iff_eq, beq_eq_false_iff_ne]
    constructor
    · exact fun h => h.1
    · rintro ⟨h1, h2⟩
      exact ⟨⟨h1, h2⟩, fun hh => absurd h1 (hk.loop _ hl hh), fun _ => by rw [h2]; exact hport⟩
  · intro n port hno hport
    simp only [inCount, setLinks_links]
    rw [List.filter_append, List.countP_append]
    have h0 : (ts.flatMap (fun t => (⟨s, sp, t.1, t.2⟩ : Link) :: (preds.map Prod.fst).map
          fun x => ordLink g x t.1)).filter (fun l => !l.at d .outgoing k) =
        ts.flatMap (fun t => (⟨s, sp, t.1, t.2⟩ : Link) :: (preds.map Prod.fst).map
          fun x => ordLink g x t.1) := by
      rw [List.filter_eq_self]
      intro l hl
      have := (hall l hl).1
      simp [Link.at, this]
    rw [h0, countP_outTargets g s sp _ ts fun t ht => hport _ ((hmemt t).1 ht) rfl]
    have h1 := countP_targets L1 d k s sp n port
    have h2 : L1.countP (fun l => decide (l.dst = n) && decide (l.dstPort = port)) =
        g.links.countP (fun l => decide (l.dst = n) && decide (l.dstPort = port)) := by
      rw [hL1, List.countP_filter]
      apply List.countP_congr
      intro l _
      simp only [Link.at, Bool.and_eq_true, decide_eq_true_eq, Bool.not_eq_true', Bool.and_eq_false_imp,
        beq_iff_eq, beq_eq_false_iff_ne]
      constructor
      · exact fun h => h.1
      · intro h; exact ⟨h, fun hh => absurd (h.1.symm.trans hh) hno⟩
    rw [← h2, ← h1, hts]
    simp only [Hugr.linkedInputs, setLinks_links]
    omega

theorem inlineOut_ok {g : Hugr Ops.Op Meta} {d o : Nat} {preds : List (Nat × Nat)} {ps : List Nat}
    {k : Nat} (hk : OutOk g d o preds (k :: ps)) (hnk : k ∉ ps) {ls : List Link}
    (hm : ∀ l, l ∈ ls ↔ AfterOut g d o preds [k] l)
    (hc : ∀ port, port ≠ k → inCount ls o port = inCount g.links o port) :
    OutOk (SetLinks g ls) d o preds ps := by
  have hsrc : ∀ s sp, (⟨s, sp, o, k⟩ : Link) ∈ g.links → s ≠ d := fun s sp hl hs => hk.loop _ hl hs rfl
  refine ⟨hk.liveD, hk.liveO, fun x hx => hk.range x (List.mem_cons_of_mem _ hx), ?_, ?_, ?_, ?_,
    fun t ht => ⟨(hk.preds t ht).1.setLinks _, (hk.preds t ht).2⟩⟩
  · intro x hx
    rw [setLinks_links, hc x (by rintro rfl; exact hnk hx)]
    exact hk.count x (List.mem_cons_of_mem _ hx)
  · intro l hl hd
    rcases (hm l).1 hl with ⟨h, _⟩ | ⟨x, hx, s, sp, t, tp, hs, ht, rfl | ⟨y, hy, rfl⟩⟩
    · exact hk.loop l h hd
    · rw [List.mem_singleton] at hx; subst hx; exact absurd hd (hsrc _ _ hs)
    · exact absurd hd (hk.preds y hy).2
  · intro l hl hd
    rcases (hm l).1 hl with ⟨h, _⟩ | ⟨x, hx, s, sp, t, tp, hs, ht, rfl | ⟨y, hy, rfl⟩⟩
    · exact ⟨(hk.ends l h hd).1, fun hp => ((hk.ends l h hd).2 (List.mem_cons_of_mem _ hp)).setLinks _⟩
    · rw [List.mem_singleton] at hx; subst hx; exact absurd hd (hsrc _ _ hs)
    · exact absurd hd (hk.preds y hy).2
  · intro l hl ho
    rcases (hm l).1 hl with ⟨h, _⟩ | ⟨x, hx, s, sp, t, tp, hs, ht, rfl | ⟨y, hy, rfl⟩⟩
    · exact hk.starts l h ho
    · exact absurd ho (hk.loop ⟨d, x, t, tp⟩ ht rfl)
    · exact absurd ho (hk.loop ⟨d, x, t, tp⟩ ht rfl)

theorem inlineOuts_eq {d o othOut : Nat} {preds : List (Nat × Nat)} (ps : List Nat) :
    ∀ {g : Hugr Ops.Op Meta}, OutOk g d o preds ps → ps.Nodup → othOut ∉ ps →
    ∃ ls, each (inlineOut d o othOut preds) g ps = some (SetLinks g ls) ∧
      (∀ l, l ∈ ls ↔ AfterOut g d o preds ps l) ∧
      (∀ n port, n ≠ o →
        (∀ l ∈ g.links, l.src = d → l.dst = n → port ≠ lastPort (g.ops n) .incoming) →
        inCount ls n port = inCount g.links n port) := by
  induction ps with
  | nil =>
    intro g _ _ _
    refine ⟨g.links, by simp [each], fun l => ?_, fun _ _ _ _ => rfl⟩
    simp [AfterOut]
  | cons k ps ih =>
    intro g hk hnd hno
    obtain ⟨ls, he, hm, hc, hcn⟩ := inlineOut_step (othOut := othOut) hk (fun h => hno (by simp [h]))
    have hnk := (List.nodup_cons.1 hnd).1
    have hk' := inlineOut_ok hk hnk hm hc
    obtain ⟨ls', he', hm', hcn'⟩ := ih hk' (List.nodup_cons.1 hnd).2
      (fun h => hno (List.mem_cons_of_mem _ h))
    refine ⟨ls', by simp only [each, he]; exact he', fun l => ?_, fun n port hn hp => ?_⟩
    swap
    · rw [hcn' n port hn ?_, setLinks_links, hcn n port hn hp]
      intro l hl hd
      rcases (hm l).1 hl with ⟨h, _⟩ | ⟨x, hx, s, sp, t, tp, hs, ht, rfl | ⟨y, hy, rfl⟩⟩
      · exact hp l h hd
      · exact absurd rfl (hk.loop _ hs hd)
      · exact absurd hd (hk.preds y hy).2
    rw [hm']
    have hsrc : ∀ s sp x, (⟨s, sp, o, x⟩ : Link) ∈ g.links → s ≠ d :=
      fun s sp x hl hs => hk.loop _ hl hs rfl
    have ho : ∀ s sp x, x ≠ k → ((⟨s, sp, o, x⟩ : Link) ∈ ls ↔ ⟨s, sp, o, x⟩ ∈ g.links) := by
      intro s sp x hx
      rw [hm]
      constructor
      · rintro (⟨h, _⟩ | ⟨y, _, s', sp', t, tp, hs', ht', he | ⟨z, hz, he⟩⟩)
        · exact h
        · simp only [Link.mk.injEq] at he
          exact absurd he.2.2.1.symm (hk.loop _ ht' rfl)
        · simp only [ordLink, Link.mk.injEq] at he
          exact absurd he.2.2.1.symm (hk.loop _ ht' rfl)
      · intro h
        exact .inl ⟨h, fun hh => hx (List.mem_singleton.1 hh.2), fun hh => hsrc _ _ _ h hh.1⟩
    have hd : ∀ x t tp, x ≠ k → ((⟨d, x, t, tp⟩ : Link) ∈ ls ↔ ⟨d, x, t, tp⟩ ∈ g.links) := by
      intro x t tp hx
      rw [hm]
      constructor
      · rintro (⟨h, _⟩ | ⟨y, _, s', sp', t', tp', hs', ht', he | ⟨z, hz, he⟩⟩)
        · exact h
        · simp only [Link.mk.injEq] at he
          exact absurd he.1.symm (hsrc _ _ _ hs')
        · simp only [ordLink, Link.mk.injEq] at he
          exact absurd he.1.symm (hk.preds z hz).2
      · intro h
        exact .inl ⟨h, fun hh => hk.loop _ h rfl hh.1, fun hh => hx (List.mem_singleton.1 hh.2)⟩
    have hne : ∀ x ∈ ps, x ≠ k := fun x hx hxk => hnk (hxk ▸ hx)
    unfold AfterOut
    simp only [setLinks_links, ordLink_setLinks]
    constructor
    · rintro (⟨h, h1, h2⟩ | ⟨x, hx, s, sp, t, tp, hs, ht, hor⟩)
      · rcases (hm l).1 h with ⟨h, h3, h4⟩ | ⟨y, hy, rest⟩
        · refine .inl ⟨h, ?_, ?_⟩
          · rintro ⟨e1, e2⟩
            rcases List.mem_cons.1 e2 with e2 | e2
            · exact h3 ⟨e1, by simp [e2]⟩
            · exact h1 ⟨e1, e2⟩
          · rintro ⟨e1, e2⟩
            rcases List.mem_cons.1 e2 with e2 | e2
            · exact h4 ⟨e1, by simp [e2]⟩
            · exact h2 ⟨e1, e2⟩
        · exact .inr ⟨y, List.mem_cons.2 (.inl (List.mem_singleton.1 hy)), rest⟩
      · exact .inr ⟨x, List.mem_cons_of_mem _ hx, s, sp, t, tp, (ho s sp x (hne x hx)).1 hs,
          (hd x t tp (hne x hx)).1 ht, hor⟩
    · rintro (⟨h, h1, h2⟩ | ⟨x, hx, s, sp, t, tp, hs, ht, hor⟩)
      · refine .inl ⟨(hm l).2 (.inl ⟨h, ?_, ?_⟩), ?_, ?_⟩
        · exact fun e => h1 ⟨e.1, by simp [List.mem_singleton.1 e.2]⟩
        · exact fun e => h2 ⟨e.1, by simp [List.mem_singleton.1 e.2]⟩
        · exact fun e => h1 ⟨e.1, by simp [e.2]⟩
        · exact fun e => h2 ⟨e.1, by simp [e.2]⟩
      · rcases List.mem_cons.1 hx with rfl | hx
        · refine .inl ⟨(hm l).2 (.inr ⟨x, by simp, s, sp, t, tp, hs, ht, hor⟩), ?_, ?_⟩
          · rintro ⟨e1, e2⟩
            rcases hor with rfl | ⟨y, hy, rfl⟩
            · exact hk.loop _ ht rfl e1
            · exact hk.loop _ ht rfl e1
          · rintro ⟨e1, e2⟩
            rcases hor with rfl | ⟨y, hy, rfl⟩
            · exact hsrc _ _ _ hs e1
            · exact (hk.preds y hy).2 e1
        · exact .inr ⟨x, hx, s, sp, t, tp, (ho s sp x (hne x hx)).2 hs, (hd x t tp (hne x hx)).2 ht, hor⟩

end Verif.Patch
