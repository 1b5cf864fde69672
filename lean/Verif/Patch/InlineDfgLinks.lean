import Verif.Patch.InlineDfgLoops

/-!
# The links after `InlineDFG`
-/
namespace Verif.Patch

open Verif.Graph Verif.Ops Verif.Passes Verif.Validate

variable {Meta : Type}

/-- What the links of a DFG node with `a` inputs and `b` outputs are like. -/
structure DfgLinks (g : Hugr Ops.Op Meta) (d i o a b : Nat) : Prop where
  liveD : g.live d = true
  liveI : g.live i = true
  liveO : g.live o = true
  insD : g.ins d = a + 1
  outsD : g.outs d = b + 1
  outsI : g.outs i = a + 1
  insO : g.ins o = b + 1
  orderI : (g.ops i).otherPort .outgoing = .ok (some a)
  orderO : (g.ops o).otherPort .incoming = .ok (some b)
  lastO : lastPort (g.ops o) .incoming = b
  di : d ≠ i
  dout : d ≠ o
  io : i ≠ o
  countD : ∀ k < a, inCount g.links d k = 1
  countO : ∀ k < b, inCount g.links o k = 1
  ok : ∀ l ∈ g.links, CanStart g l.src l.srcPort ∧ CanEnd g l.dst l.dstPort
  srcOrder : ∀ l ∈ g.links, l.dst = d ∨ l.dst = o → HasOrder g l.src .outgoing
  dstOrder : ∀ l ∈ g.links, l.src = d ∨ l.src = i → HasOrder g l.dst .incoming
  noID : ∀ l ∈ g.links, l.src = i → l.dst ≠ d
  noDO : ∀ l ∈ g.links, l.src = d → l.dst ≠ o
  noDD : ∀ l ∈ g.links, l.src = d → l.dst ≠ d
  noO : ∀ l ∈ g.links, l.src ≠ o
  noI : ∀ l ∈ g.links, l.dst ≠ i
  lastD : ∀ l ∈ g.links, l.dst = d → l.dstPort = a → l.srcPort = lastPort (g.ops l.src) .outgoing
  lastI : ∀ l ∈ g.links, l.src = i → l.srcPort = a → l.dstPort = lastPort (g.ops l.dst) .incoming
  lastDO : ∀ l ∈ g.links, l.src = d → l.srcPort = b → l.dstPort = lastPort (g.ops l.dst) .incoming
  lastOO : ∀ l ∈ g.links, l.dst = o → l.dstPort = b → l.srcPort = lastPort (g.ops l.src) .outgoing

/-- Two nodes that are ordered by way of the input. -/
def OrdIn (ls : List Link) (d i a x y : Nat) : Prop :=
  ∃ l1 ∈ ls, ∃ l2 ∈ ls, l1.src = x ∧ l1.dst = d ∧ l2.src = i ∧ l2.dst = y ∧
    (l1.dstPort = a ∨ l2.srcPort = a)

/-- Two nodes that are ordered by way of the output. -/
def OrdOut (h : Hugr Ops.Op Meta) (d i o a b x y : Nat) : Prop :=
  ∃ l2 ∈ h.links, l2.src = d ∧ l2.dst = y ∧
    (OrdIn h.links d i a x o ∨
     ∃ l1 ∈ h.links, l1.dst = o ∧ (∃ sp, Comes h d i o l1.src l1.srcPort x sp) ∧
       (l1.dstPort = b ∨ l2.srcPort = b))

/-- The links after the inputs. -/
def After2 (g : Hugr Ops.Op Meta) (d i a : Nat) (l : Link) : Prop :=
  (l ∈ g.links ∧ ¬ (l.dst = d ∧ l.dstPort < a) ∧ ¬ (l.src = i ∧ l.srcPort < a)) ∨
  (∃ k < a, ⟨l.src, l.srcPort, d, k⟩ ∈ g.links ∧ ⟨i, k, l.dst, l.dstPort⟩ ∈ g.links) ∨
  ∃ x y, OrdIn g.links d i a x y ∧ l = ordLink g x y

theorem range_filter (a : Nat) : (List.range (a + 1)).filter (fun k => decide (k ≠ a)) = List.range a := by
  rw [List.range_succ, List.filter_append]
  have h1 : (List.range a).filter (fun k => decide (k ≠ a)) = List.range a := by
    rw [List.filter_eq_self]
    intro x hx
    have := List.mem_range.1 hx
    simp; omega
  rw [h1]; simp

theorem inlineLinks_ins {g : Hugr Ops.Op Meta} {d i o a b : Nat} (hd : DfgLinks g d i o a b) :
    ∃ h1 ls, inlineOrderIns g d i a = some h1 ∧ (h1.ops i).otherPort .outgoing = .ok (some a) ∧
      each (inlineIn d i a (h1.linkedInputs i a)) h1 (List.range (h1.ins d)) = some (SetLinks g ls) ∧
      (∀ l, l ∈ ls ↔ After2 g d i a l) ∧ (∀ k < b, inCount ls o k = 1) ∧
      ∀ n port, n ≠ d →
        (∀ l ∈ g.links, l.src = i → l.dst = n → port ≠ lastPort (g.ops n) .incoming) →
        inCount ls n port = inCount g.links n port := by
  have hpreds : ∀ s ∈ g.linkedOutputs d a, HasOrder g s.1 .outgoing ∧ s.1 ≠ i := by
    intro s hs
    rw [mem_linkedOutputs] at hs
    exact ⟨hd.srcOrder _ hs (.inl rfl), fun h => hd.noID _ hs h rfl⟩
  have htgts : ∀ t ∈ outputNeighbours g i, HasOrder g t .incoming ∧ t ≠ d := by
    intro t ht
    obtain ⟨l, hl, h1, rfl⟩ := mem_outputNeighbours.1 ht
    exact ⟨hd.dstOrder l hl (.inr h1), hd.noID l hl h1⟩
  have h1 := orderIns_eq g i _ hpreds fun t ht => (htgts t ht).1
  set N1 := (g.linkedOutputs d a).flatMap fun s => (outputNeighbours g i).map (ordLink g s.1) with hN1
  have hmN : ∀ l, l ∈ N1 ↔ ∃ s sp t, ⟨s, sp, d, a⟩ ∈ g.links ∧ (∃ l2 ∈ g.links, l2.src = i ∧ l2.dst = t) ∧
      l = ordLink g s t := by
    intro l
    simp only [hN1, List.mem_flatMap, List.mem_map, mem_outputNeighbours, Prod.exists]
    constructor
    · rintro ⟨s, sp, hs, t, ht, rfl⟩
      exact ⟨s, sp, t, mem_linkedOutputs.1 hs, ht, rfl⟩
    · rintro ⟨s, sp, t, hs, ht, rfl⟩
      exact ⟨s, sp, mem_linkedOutputs.2 hs, t, ht, rfl⟩
  have hN : ∀ l ∈ N1, l.src ≠ i ∧ l.dst ≠ d ∧ l.dstPort = lastPort (g.ops l.dst) .incoming := by
    intro l hl
    obtain ⟨s, sp, t, hs, ⟨l2, hl2, h2, rfl⟩, rfl⟩ := (hmN l).1 hl
    exact ⟨fun h => hd.noID _ hs h rfl, hd.noID l2 hl2 h2, rfl⟩
  have hsucc : ∀ t : Nat × Nat, t ∈ (SetLinks g (g.links ++ N1)).linkedInputs i a ↔
      ⟨i, a, t.1, t.2⟩ ∈ g.links := by
    intro t
    rw [mem_linkedInputs, setLinks_links, List.mem_append]
    constructor
    · rintro (h | h)
      · exact h
      · exact absurd rfl (hN _ h).1
    · exact .inl
  have hin : InOk (SetLinks g (g.links ++ N1)) d i ((SetLinks g (g.links ++ N1)).linkedInputs i a)
      (List.range a) := by
    refine ⟨hd.liveD, hd.liveI, ?_, ?_, ?_, ?_, ?_, ?_⟩
    · intro k hk
      have := List.mem_range.1 hk
      simp only [setLinks_ins, setLinks_outs, hd.insD, hd.outsI]
      omega
    · intro k hk
      rw [setLinks_links, inCount, List.countP_append]
      have h0 : N1.countP (fun l => decide (l.dst = d) && decide (l.dstPort = k)) = 0 := by
        rw [List.countP_eq_zero]
        intro l hl
        rw [Bool.and_eq_true, decide_eq_true_eq]
        exact fun h => (hN l hl).2.1 h.1
      rw [h0, Nat.add_zero]
      exact hd.countD k (List.mem_range.1 hk)
    · intro l hl hs
      rcases List.mem_append.1 hl with hl | hl
      · exact hd.noID l hl hs
      · exact absurd hs (hN l hl).1
    · intro l hl hs
      rcases List.mem_append.1 hl with hl | hl
      · exact (hd.ok l hl).2
      · exact absurd hs (hN l hl).1
    · intro l hl hs
      rcases List.mem_append.1 hl with hl | hl
      · exact ⟨(hd.ok l hl).1, fun _ => (hd.srcOrder l hl (.inl hs)).setLinks _⟩
      · exact absurd hs (hN l hl).2.1
    · intro t ht
      rw [hsucc] at ht
      exact ⟨(hd.dstOrder _ ht (.inr rfl)).setLinks _, hd.noID _ ht rfl⟩
  obtain ⟨ls, he, hm, hc⟩ := inlineIns_eq (othIn := a) _ hin List.nodup_range (by simp)
  have hcn : ∀ n port, n ≠ d →
      (∀ l ∈ g.links, l.src = i → l.dst = n → port ≠ lastPort (g.ops n) .incoming) →
      inCount ls n port = inCount g.links n port := by
    intro n port hn hp
    rw [hc n port hn fun t ht h => hp _ ((hsucc t).1 ht) rfl h.1 h.2.symm, setLinks_links, inCount, List.countP_append]
    have h0 : N1.countP (fun l => decide (l.dst = n) && decide (l.dstPort = port)) = 0 := by
      rw [List.countP_eq_zero]
      intro l hl
      rw [Bool.and_eq_true, decide_eq_true_eq, decide_eq_true_eq]
      rintro ⟨h1, h2⟩
      obtain ⟨s, sp, t, hs, ⟨l2, hl2, h3, h4⟩, rfl⟩ := (hmN l).1 hl
      simp only [ordLink] at h1 h2
      exact hp l2 hl2 h3 (h4.trans h1) (by rw [← h2, h1])
    rw [h0, Nat.add_zero]
    rfl
  refine ⟨_, ls, h1, hd.orderI, ?_, ?_, ?_, hcn⟩
  · rw [each_filter _ (fun k => decide (k ≠ a))]
    · rw [setLinks_ins, hd.insD, range_filter]
      exact he
    · intro h x hx
      have hx : x = a := by simpa using hx
      unfold inlineIn
      rw [if_pos hx]
  · intro l
    rw [hm]
    unfold AfterIn After2
    simp only [List.mem_range, setLinks_links, ordLink_setLinks]
    have hlt : ∀ l ∈ g.links, l.dst = d → l.dstPort ≠ a → l.dstPort < a := by
      intro l hl h1 h2
      have := (hd.ok l hl).2.2
      rw [h1, hd.insD] at this
      omega
    constructor
    · rintro (⟨h, h2, h3⟩ | ⟨k, hk, s, sp, hs, hor⟩)
      · rcases List.mem_append.1 h with h | h
        · exact .inl ⟨h, h2, h3⟩
        · obtain ⟨s, sp, t, hs, ⟨l2, hl2, e1, e2⟩, rfl⟩ := (hmN l).1 h
          exact .inr (.inr ⟨s, t, ⟨_, hs, l2, hl2, rfl, rfl, e1, e2, .inl rfl⟩, rfl⟩)
      · have hs' : (⟨s, sp, d, k⟩ : Link) ∈ g.links := by
          rcases List.mem_append.1 hs with hs | hs
          · exact hs
          · exact absurd rfl (hN _ hs).2.1
        rcases hor with ⟨rfl, rfl, h3⟩ | ⟨t, ht, rfl⟩
        · refine .inr (.inl ⟨k, hk, hs', ?_⟩)
          rcases List.mem_append.1 h3 with h3 | h3
          · exact h3
          · exact absurd rfl (hN _ h3).1
        · rw [hsucc] at ht
          exact .inr (.inr ⟨s, t.1, ⟨_, hs', _, ht, rfl, rfl, rfl, rfl, .inr rfl⟩, rfl⟩)
    · rintro (⟨h, h2, h3⟩ | ⟨k, hk, hs, ht⟩ | ⟨x, y, ⟨l1, hl1, l2, hl2, e1, e2, e3, e4, hor⟩, rfl⟩)
      · exact .inl ⟨List.mem_append_left _ h, h2, h3⟩
      · exact .inr ⟨k, hk, _, _, List.mem_append_left _ hs, .inl ⟨rfl, rfl, List.mem_append_left _ ht⟩⟩
      · by_cases hp : l1.dstPort = a
        · have hm1 : ordLink g x y ∈ N1 := by
            rw [hmN]
            refine ⟨l1.src, l1.srcPort, y, ?_, ⟨l2, hl2, e3, e4⟩, by rw [e1]⟩
            have : l1 = ⟨l1.src, l1.srcPort, d, a⟩ := by rw [← e2, ← hp]
            rw [← this]; exact hl1
          exact .inl ⟨List.mem_append_right _ hm1, fun h => (hN _ hm1).2.1 h.1, fun h => (hN _ hm1).1 h.1⟩
        · have hk := hlt l1 hl1 e2 hp
          have h2 : l2.srcPort = a := hor.resolve_left hp
          refine .inr ⟨l1.dstPort, hk, l1.src, l1.srcPort, ?_, .inr ⟨(l2.dst, l2.dstPort), ?_, ?_⟩⟩
          · have : l1 = ⟨l1.src, l1.srcPort, d, l1.dstPort⟩ := by rw [← e2]
            rw [← this]; exact List.mem_append_left _ hl1
          · rw [hsucc]
            have : l2 = ⟨i, a, l2.dst, l2.dstPort⟩ := by rw [← e3, ← h2]
            rw [← this]; exact hl2
          · rw [e1, e4]
  · intro k hk
    rw [hcn o k hd.dout.symm fun _ _ _ _ => by rw [hd.lastO]; omega]
    exact hd.countO k hk

/-- The links after everything, other than those of the nodes that go. -/
def After4 (g : Hugr Ops.Op Meta) (d i o a b : Nat) (l : Link) : Prop :=
  (∃ n port, ⟨n, port, l.dst, l.dstPort⟩ ∈ g.links ∧ Comes g d i o n port l.src l.srcPort) ∨
  (l = ordLink g l.src l.dst ∧ (OrdIn g.links d i a l.src l.dst ∨ OrdOut g d i o a b l.src l.dst))

/-- What there is at the output after the inputs are done. -/
theorem After2.output {g : Hugr Ops.Op Meta} {d i o a b : Nat} (hd : DfgLinks g d i o a b) {l : Link}
    (h2 : After2 g d i a l) (ho : l.dst = o) :
    (OrdIn g.links d i a l.src o ∧ l = ordLink g l.src o) ∨
    ∃ n port, ⟨n, port, o, l.dstPort⟩ ∈ g.links ∧ (l.src ≠ i → Comes g d i o n port l.src l.srcPort) := by
  rcases h2 with ⟨h, _, _⟩ | ⟨k, _, h1, h2⟩ | ⟨x, y, hxy, rfl⟩
  · refine .inr ⟨l.src, l.srcPort, ?_, fun hi => .self (fun hd' => hd.noDO l h hd' ho) hi⟩
    rw [← ho]; exact h
  · exact .inr ⟨i, k, by rw [← ho]; exact h2, fun _ => .input h1⟩
  · simp only [ordLink] at ho
    subst ho
    exact .inl ⟨hxy, rfl⟩

/-- What comes out of something linked to the output is linked to the output. -/
theorem comes_after2 {g : Hugr Ops.Op Meta} {d i o a b : Nat} (hd : DfgLinks g d i o a b)
    {n port q s sp : Nat} (hl : ⟨n, port, o, q⟩ ∈ g.links) (hc : Comes g d i o n port s sp) :
    s ≠ i ∧ s ≠ d ∧ (After2 g d i a ⟨s, sp, o, q⟩ ∨ (OrdIn g.links d i a s o)) := by
  cases hc with
  | self h1 h2 => exact ⟨h2, h1, .inl (.inl ⟨hl, fun h => hd.dout h.1.symm, fun h => h2 h.1⟩)⟩
  | input hs =>
    refine ⟨fun h => hd.noID _ hs h rfl, fun h => hd.noDD _ hs h rfl, ?_⟩
    by_cases hp : port < a
    · exact .inl (.inr (.inl ⟨port, hp, hs, hl⟩))
    · have h1 := (hd.ok _ hs).2.2
      simp only [hd.insD] at h1
      have : port = a := by omega
      subst this
      exact .inr ⟨_, hs, _, hl, rfl, rfl, rfl, rfl, .inl rfl⟩
  | output h1 h2 => exact absurd rfl (hd.noDO _ hl rfl)

theorem inlineLinks_eq {g : Hugr Ops.Op Meta} {d i o a b : Nat} (hd : DfgLinks g d i o a b) :
    ∃ ls, inlineLinks g d i o a b = some (SetLinks g ls) ∧
      (∀ l : Link, l.src ≠ d → l.src ≠ i → l.src ≠ o → l.dst ≠ d → l.dst ≠ i → l.dst ≠ o →
        (l ∈ ls ↔ After4 g d i o a b l)) ∧
      ∀ n port, n ≠ d → n ≠ o →
        (∀ l ∈ g.links, l.src = d ∨ l.src = i → l.dst = n → port ≠ lastPort (g.ops n) .incoming) →
        inCount ls n port = inCount g.links n port := by
  obtain ⟨h1, L2, e1, e2, e3, hm2, hc2, hcn2⟩ := inlineLinks_ins hd
  -- links out of the DFG node
  have hfromD : ∀ l, l.src = d → (l ∈ L2 ↔ l ∈ g.links) := by
    intro l hs
    rw [hm2]
    constructor
    · rintro (⟨h, _⟩ | ⟨k, _, h, _⟩ | ⟨x, y, ⟨l1, hl1, l2, hl2, f1, f2, f3, f4, _⟩, rfl⟩)
      · exact h
      · exact absurd rfl (hd.noDD _ h hs)
      · exact absurd f2 (hd.noDD _ hl1 (f1.trans hs))
    · intro h
      exact .inl ⟨h, fun hh => hd.noDD l h hs hh.1, fun hh => hd.di (hs.symm.trans hh.1)⟩
  -- order ports
  have hord2 : ∀ l ∈ L2, l.dst = o → HasOrder g l.src .outgoing ∧ CanStart g l.src l.srcPort := by
    intro l hl ho
    rcases (hm2 l).1 hl with ⟨h, _⟩ | ⟨k, _, h, _⟩ | ⟨x, y, ⟨l1, hl1, l2, hl2, f1, f2, f3, f4, _⟩, rfl⟩
    · exact ⟨hd.srcOrder l h (.inr ho), (hd.ok l h).1⟩
    · exact ⟨hd.srcOrder ⟨l.src, l.srcPort, d, k⟩ h (.inl rfl), (hd.ok ⟨l.src, l.srcPort, d, k⟩ h).1⟩
    · have := hd.srcOrder l1 hl1 (.inl f2)
      rw [f1] at this
      exact ⟨this, this.live, this.range⟩
  have hsuccs : ∀ t ∈ (SetLinks g L2).linkedInputs d b, (⟨d, b, t.1, t.2⟩ : Link) ∈ g.links := by
    intro t ht
    rw [mem_linkedInputs, setLinks_links, hfromD _ rfl] at ht
    exact ht
  have h3 := orderOuts_eq (SetLinks g L2) o ((SetLinks g L2).linkedInputs d b)
    (fun t ht => ⟨(hd.dstOrder _ (hsuccs t ht) (.inl rfl)).setLinks _, hd.noDO _ (hsuccs t ht) rfl⟩)
    (by
      intro s hs
      obtain ⟨l, hl, h1, rfl⟩ := mem_inputNeighbours.1 hs
      exact (hord2 l hl h1).1.setLinks _)
  set N3 := ((SetLinks g L2).linkedInputs d b).flatMap fun t =>
    (inputNeighbours (SetLinks g L2) o).map fun s => ordLink (SetLinks g L2) s t.1 with hN3
  have hmN : ∀ l, l ∈ N3 ↔ ∃ t tp l1, ⟨d, b, t, tp⟩ ∈ g.links ∧ l1 ∈ L2 ∧ l1.dst = o ∧
      l = ordLink g l1.src t := by
    intro l
    simp only [hN3, List.mem_flatMap, List.mem_map, mem_inputNeighbours, ordLink_setLinks, setLinks_links,
      Prod.exists, mem_linkedInputs]
    constructor
    · rintro ⟨t, tp, ht, s, ⟨l1, hl1, f1, rfl⟩, rfl⟩
      exact ⟨t, tp, l1, (hfromD _ rfl).1 ht, hl1, f1, rfl⟩
    · rintro ⟨t, tp, l1, ht, hl1, f1, rfl⟩
      exact ⟨t, tp, (hfromD _ rfl).2 ht, l1.src, ⟨l1, hl1, f1, rfl⟩, rfl⟩
  have hsrcO : ∀ l ∈ L2, l.dst = o → l.src ≠ d := by
    intro l hl ho hs
    exact hd.noDO l ((hfromD l hs).1 hl) hs ho
  have hN : ∀ l ∈ N3, l.dst ≠ o ∧ l.src ≠ d := by
    intro l hl
    obtain ⟨t, tp, l1, ht, hl1, f1, rfl⟩ := (hmN l).1 hl
    exact ⟨hd.noDO ⟨d, b, t, tp⟩ ht rfl, hsrcO l1 hl1 f1⟩
  simp only [setLinks_setLinks, setLinks_links] at h3
  -- links into the output
  have hto : ∀ l, l.dst = o → (l ∈ L2 ++ N3 ↔ l ∈ L2) := by
    intro l ho
    rw [List.mem_append]
    constructor
    · rintro (h | h)
      · exact h
      · exact absurd ho (hN l h).1
    · exact .inl
  have hfrom : ∀ l, l.src = d → (l ∈ L2 ++ N3 ↔ l ∈ g.links) := by
    intro l hs
    rw [List.mem_append, hfromD l hs]
    constructor
    · rintro (h | h)
      · exact h
      · exact absurd hs (hN l h).2
    · exact .inl
  have hout : OutOk (SetLinks g (L2 ++ N3)) d o ((SetLinks g (L2 ++ N3)).linkedOutputs o b)
      (List.range b) := by
    refine ⟨hd.liveD, hd.liveO, ?_, ?_, ?_, ?_, ?_, ?_⟩
    · intro k hk
      have := List.mem_range.1 hk
      simp only [setLinks_ins, setLinks_outs, hd.insO, hd.outsD]
      omega
    · intro k hk
      rw [setLinks_links, inCount, List.countP_append]
      have h0 : N3.countP (fun l => decide (l.dst = o) && decide (l.dstPort = k)) = 0 := by
        rw [List.countP_eq_zero]
        intro l hl
        rw [Bool.and_eq_true, decide_eq_true_eq]
        exact fun h => (hN l hl).1 h.1
      rw [h0, Nat.add_zero]
      exact hc2 k (List.mem_range.1 hk)
    · intro l hl hs
      exact hd.noDO l ((hfrom l hs).1 hl) hs
    · intro l hl hs
      have hl := (hfrom l hs).1 hl
      exact ⟨(hd.ok l hl).2, fun _ => (hd.dstOrder l hl (.inl hs)).setLinks _⟩
    · intro l hl ho
      exact (hord2 l ((hto l ho).1 hl) ho).2
    · intro s hs
      rw [mem_linkedOutputs, setLinks_links, hto _ rfl] at hs
      exact ⟨(hord2 _ hs rfl).1.setLinks _, hsrcO _ hs rfl⟩
  obtain ⟨L4, he4, hm4, hcn4⟩ := inlineOuts_eq (othOut := b) _ hout List.nodup_range (by simp)
  refine ⟨L4, ?_, ?_, ?_⟩
  rotate_left 2
  · intro n port hnd hno hp
    rw [hcn4 n port hno fun l hl hs => hp l ((hfrom l hs).1 hl) (.inl hs), setLinks_links, inCount, List.countP_append]
    have h0 : N3.countP (fun l => decide (l.dst = n) && decide (l.dstPort = port)) = 0 := by
      rw [List.countP_eq_zero]
      intro l hl
      obtain ⟨t, tp, l1, ht, _, _, rfl⟩ := (hmN l).1 hl
      rw [Bool.and_eq_true, decide_eq_true_eq, decide_eq_true_eq]
      rintro ⟨h1, h2⟩
      simp only [ordLink] at h1 h2
      exact hp _ ht (.inl rfl) h1 (by rw [← h2, h1])
    rw [h0, Nat.add_zero]
    exact hcn2 n port hnd fun l hl hs => hp l hl (.inr hs)
  · unfold inlineLinks
    rw [e1]
    simp only [e2, e3, inlineOrderOuts, h3]
    have h5 : ((SetLinks g (L2 ++ N3)).ops o).otherPort .incoming = .ok (some b) := hd.orderO
    simp only [h5, setLinks_outs, hd.outsD]
    rw [each_filter _ (fun k => decide (k ≠ b)), range_filter]
    · exact he4
    · intro h x hx
      have hx : x = b := by simpa using hx
      unfold inlineOut
      rw [if_pos hx]
  intro l hsd hsi hso hld hli hlo
  rw [hm4]
  unfold AfterOut
  simp only [List.mem_range, setLinks_links, ordLink_setLinks]
  have hltD : ∀ l ∈ g.links, l.src = d → l.srcPort ≠ b → l.srcPort < b := by
    intro l hl h1 h2
    have := (hd.ok l hl).1.2
    rw [h1, hd.outsD] at this
    omega
  constructor
  · rintro (⟨h, _, _⟩ | ⟨k, hk, s, sp, t, tp, hs, ht, hor⟩)
    · rcases List.mem_append.1 h with h | h
      · rcases (hm2 l).1 h with ⟨h, _⟩ | ⟨k, _, f1, f2⟩ | ⟨x, y, hxy, rfl⟩
        · exact .inl ⟨_, _, h, .self hsd hsi⟩
        · exact .inl ⟨_, _, f2, .input f1⟩
        · exact .inr ⟨rfl, .inl hxy⟩
      · obtain ⟨t, tp, l1, ht, hl1, f1, rfl⟩ := (hmN l).1 h
        refine .inr ⟨rfl, .inr ⟨_, ht, rfl, rfl, ?_⟩⟩
        rcases ((hm2 l1).1 hl1).output hd f1 with ⟨hx, _⟩ | ⟨n, port, hl, hc⟩
        · exact .inl hx
        · exact .inr ⟨_, hl, rfl, ⟨_, hc hsi⟩, .inr rfl⟩
    · rw [hto _ rfl, hm2] at hs
      rw [hfrom _ rfl] at ht
      rcases hor with rfl | ⟨x, hx, rfl⟩
      · rcases hs.output hd rfl with ⟨hx, hp⟩ | ⟨n, port, hl, hc⟩
        · -- an order link cannot be at a value port
          simp only [ordLink, Link.mk.injEq, hd.lastO] at hp
          omega
        · exact .inl ⟨d, k, ht, .output hl (hc hsi)⟩
      · rw [mem_linkedOutputs, setLinks_links, hto _ rfl, hm2] at hx
        refine .inr ⟨rfl, .inr ⟨_, ht, rfl, rfl, ?_⟩⟩
        rcases hx.output hd rfl with ⟨hx, _⟩ | ⟨n, port, hl, hc⟩
        · exact .inl hx
        · exact .inr ⟨_, hl, rfl, ⟨_, hc hsi⟩, .inl rfl⟩
  · have hkeep : ∀ l, l.dst ≠ o → l.src ≠ d → l ∈ L2 → (l ∈ L2 ++ N3 ∧ ¬ (l.dst = o ∧ l.dstPort < b) ∧
        ¬ (l.src = d ∧ l.srcPort < b)) := fun l h1 h2 h3 =>
      ⟨List.mem_append_left _ h3, fun h => h1 h.1, fun h => h2 h.1⟩
    -- an order link by way of the output
    have hthrough : ∀ l1 l2, l1 ∈ L2 → l1.dst = o → l2 ∈ g.links → l2.src = d →
        (l1.dstPort = b ∨ l2.srcPort = b) →
        (ordLink g l1.src l2.dst ∈ L2 ++ N3 ∧ ¬ ((ordLink g l1.src l2.dst).dst = o ∧
          (ordLink g l1.src l2.dst).dstPort < b) ∧
        ¬ ((ordLink g l1.src l2.dst).src = d ∧ (ordLink g l1.src l2.dst).srcPort < b)) ∨
        ∃ k, k < b ∧ ∃ s sp t tp, ⟨s, sp, o, k⟩ ∈ L2 ++ N3 ∧ ⟨d, k, t, tp⟩ ∈ L2 ++ N3 ∧
          (ordLink g l1.src l2.dst = ⟨s, sp, t, tp⟩ ∨
          ∃ x ∈ (SetLinks g (L2 ++ N3)).linkedOutputs o b, ordLink g l1.src l2.dst = ordLink g x.1 t) := by
      intro l1 l2 hl1 ho hl2 hd2 hor
      by_cases hp : l2.srcPort = b
      · have hm : ordLink g l1.src l2.dst ∈ N3 := by
          rw [hmN]
          refine ⟨l2.dst, l2.dstPort, l1, ?_, hl1, ho, rfl⟩
          have : l2 = ⟨d, b, l2.dst, l2.dstPort⟩ := by rw [← hd2, ← hp]
          rw [← this]; exact hl2
        exact .inl ⟨List.mem_append_right _ hm, fun h => (hN _ hm).1 h.1, fun h => (hN _ hm).2 h.1⟩
      · have hk := hltD l2 hl2 hd2 hp
        have hb : l1.dstPort = b := hor.resolve_right hp
        obtain ⟨l3, hl3⟩ : ∃ l3, l3 ∈ L2 ∧ l3.dst = o ∧ l3.dstPort = l2.srcPort := by
          have hcount := hc2 l2.srcPort hk
          unfold inCount at hcount
          obtain ⟨l3, hl3, hp3⟩ := List.countP_pos_iff.1 (by rw [hcount]; exact Nat.one_pos)
          simp only [Bool.and_eq_true, decide_eq_true_eq] at hp3
          exact ⟨l3, hl3, hp3⟩
        refine .inr ⟨l2.srcPort, hk, l3.src, l3.srcPort, l2.dst, l2.dstPort, ?_, ?_, .inr
          ⟨(l1.src, l1.srcPort), ?_, rfl⟩⟩
        · rw [hto _ rfl]
          have : l3 = ⟨l3.src, l3.srcPort, o, l2.srcPort⟩ := by rw [← hl3.2.1, ← hl3.2.2]
          rw [← this]; exact hl3.1
        · rw [hfrom _ rfl]
          have : l2 = ⟨d, l2.srcPort, l2.dst, l2.dstPort⟩ := by rw [← hd2]
          rw [← this]; exact hl2
        · rw [mem_linkedOutputs, setLinks_links, hto _ rfl]
          have : l1 = ⟨l1.src, l1.srcPort, o, b⟩ := by rw [← ho, ← hb]
          rw [← this]; exact hl1
    have hordl : ∀ x y, OrdIn g.links d i a x y → ordLink g x y ∈ L2 :=
      fun x y h => (hm2 _).2 (.inr (.inr ⟨x, y, h, rfl⟩))
    rintro (⟨n, port, hl, hc⟩ | ⟨he, hin | ⟨l2, hl2, f1, f2, hor⟩⟩)
    · obtain ⟨s, sp, t, tp⟩ := l
      simp only [] at hsd hsi hso hld hli hlo hl hc
      cases hc with
      | self =>
        exact .inl (hkeep _ hlo hsd ((hm2 _).2 (.inl ⟨hl, fun h => hld h.1, fun h => hsi h.1⟩)))
      | input hs' =>
        by_cases hp : port < a
        · exact .inl (hkeep _ hlo hsd ((hm2 _).2 (.inr (.inl ⟨port, hp, hs', hl⟩))))
        · have h1 := (hd.ok _ hs').2.2
          simp only [hd.insD] at h1
          have : port = a := by omega
          subst this
          have h2 := hd.lastD _ hs' rfl rfl
          have h3 := hd.lastI _ hl rfl rfl
          have hle : (⟨s, sp, t, tp⟩ : Link) = ordLink g s t := by
            simp only [] at h2 h3
            simp only [ordLink, Link.mk.injEq]
            exact ⟨trivial, h2, trivial, h3⟩
          refine .inl (hkeep _ hlo hsd ?_)
          rw [hle]
          exact hordl s t ⟨_, hs', _, hl, rfl, rfl, rfl, rfl, .inl rfl⟩
      | output hs' hc' =>
        rename_i n' np'
        by_cases hp : port < b
        · refine .inr ⟨port, hp, s, sp, t, tp, ?_, (hfrom _ rfl).2 hl, .inl rfl⟩
          rw [hto _ rfl]
          obtain ⟨g1, g2, g3 | g3⟩ := comes_after2 hd hs' hc'
          · exact (hm2 _).2 g3
          · -- then the source is an order port
            cases hc' with
            | self g4 g5 =>
              exact (hm2 _).2 (.inl ⟨hs', fun h => hd.dout h.1.symm, fun h => g1 h.1⟩)
            | input g4 =>
              by_cases hq : np' < a
              · exact (hm2 _).2 (.inr (.inl ⟨_, hq, g4, hs'⟩))
              · exfalso
                have h1 := (hd.ok _ g4).2.2
                simp only [hd.insD] at h1
                have hqa : np' = a := by omega
                have h2 := hd.lastI _ hs' rfl hqa
                simp only [hd.lastO] at h2
                omega
            | output g4 g5 => exact absurd rfl (hd.noDO _ hs' rfl)
        · have h1 := (hd.ok _ hl).1.2
          simp only [hd.outsD] at h1
          have hpb : port = b := by omega
          subst hpb
          obtain ⟨g1, g2, g3⟩ := comes_after2 hd hs' hc'
          have hlast := hd.lastDO _ hl rfl rfl
          have hlast2 := hd.lastOO _ hs' rfl rfl
          simp only [] at hlast hlast2
          have hsp' : sp = lastPort (g.ops s) .outgoing := by
            cases hc' with
            | self => exact hlast2
            | input g4 =>
              have hi : HasOrder g i .outgoing := hd.srcOrder _ hs' (.inr rfl)
              have hp := hi.port
              rw [hd.orderI] at hp
              simp only [Run.ok.injEq, Option.some.injEq] at hp
              exact hd.lastD _ g4 rfl (hlast2.trans hp.symm)
            | output g4 g5 => exact absurd rfl (hd.noDO _ hs' rfl)
          have hle : (⟨s, sp, t, tp⟩ : Link) = ordLink g s t := by
            simp only [ordLink, Link.mk.injEq]
            exact ⟨trivial, hsp', trivial, hlast⟩
          rw [hle]
          rcases g3 with g3 | g3
          · exact hthrough ⟨s, sp, o, port⟩ ⟨d, port, t, tp⟩ ((hm2 _).2 g3) rfl hl rfl (.inl rfl)
          · exact hthrough (ordLink g s o) ⟨d, port, t, tp⟩ (hordl _ _ g3) rfl hl rfl (.inr rfl)
    · exact .inl (hkeep l hlo hsd (by rw [he]; exact hordl _ _ hin))
    · rw [he]
      rcases hor with hin | ⟨l1, hl1, f3, ⟨sp, hc⟩, hor⟩
      · have := hthrough (ordLink g l.src o) l2 (hordl _ _ hin) rfl hl2 f1 (.inl hd.lastO)
        rw [f2] at this
        exact this
      · have hl1' : (⟨l1.src, l1.srcPort, o, l1.dstPort⟩ : Link) ∈ g.links := by rw [← f3]; exact hl1
        obtain ⟨_, _, g3 | g3⟩ := comes_after2 hd hl1' hc
        · have := hthrough ⟨l.src, sp, o, l1.dstPort⟩ l2 ((hm2 _).2 g3) rfl hl2 f1 hor
          rw [f2] at this
          exact this
        · have := hthrough (ordLink g l.src o) l2 (hordl _ _ g3) rfl hl2 f1 (.inl hd.lastO)
          rw [f2] at this
          exact this

end Verif.Patch
