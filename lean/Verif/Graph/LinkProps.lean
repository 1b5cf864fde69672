import Mathlib.Data.List.Count
import Mathlib.Data.List.Perm.Basic
import Verif.Graph.RemoveProps

/-!
# C21: links

Sources: `/repo/hugr-core/src/hugr/hugrmut.rs` (`connect`, `disconnect`),
`/repo/hugr-core/src/hugr/internal.rs` (`set_num_ports`, `add_ports`, `insert_ports`).
-/
namespace Verif.Graph

variable {Op Meta : Type}

/-! ## Specification -/

/-- Nothing but the links and the numbers of ports differ. -/
structure SameButPorts (h h' : Hugr Op Meta) : Prop where
  live : h'.live = h.live
  hier : h'.hier = h.hier
  ops : h'.ops = h.ops
  metadata : h'.metadata = h.metadata
  moduleRoot : h'.moduleRoot = h.moduleRoot
  entrypoint : h'.entrypoint = h.entrypoint
  cap : h'.cap = h.cap

/-- The end of a link on the given side: node and port. -/
def Link.end (l : Link) : Dir → Nat × Nat
  | .incoming => (l.dst, l.dstPort)
  | .outgoing => (l.src, l.srcPort)

/-- The port exists. -/
def PortExists (h : Hugr Op Meta) (n : Nat) (dir : Dir) (port : Nat) : Prop :=
  h.live n = true ∧ port < h.numPorts n dir

/-- The link after the ports of `n` from `index` on were renumbered to start at `index + amount`. -/
def Link.renumber (l : Link) (n : Nat) (dir : Dir) (index amount : Nat) : Link :=
  match dir with
  | .incoming =>
    if l.dst = n ∧ index ≤ l.dstPort then { l with dstPort := l.dstPort + amount } else l
  | .outgoing =>
    if l.src = n ∧ index ≤ l.srcPort then { l with srcPort := l.srcPort + amount } else l

/-! ## Basic operations -/

theorem linksOk_iff (h : Hugr Op Meta) : LinksOk h ↔
    ∀ l ∈ h.links, PortExists h l.src .outgoing l.srcPort ∧ PortExists h l.dst .incoming l.dstPort := by
  unfold LinksOk PortExists Hugr.numPorts
  constructor
  · intro hl l hm; obtain ⟨a, b, c, d⟩ := hl l hm; exact ⟨⟨a, b⟩, c, d⟩
  · intro hl l hm; obtain ⟨⟨a, b⟩, c, d⟩ := hl l hm; exact ⟨a, b, c, d⟩

/-- **C21** `connect` succeeds exactly if both ports exist; it then adds that link, once, and changes
nothing else. -/
theorem C21_connect (h : Hugr Op Meta) (l : Link) :
    ((∃ h', h.connect l = some h') ↔
      PortExists h l.src .outgoing l.srcPort ∧ PortExists h l.dst .incoming l.dstPort) ∧
    ∀ h', h.connect l = some h' → SameButPorts h h' ∧ h'.ins = h.ins ∧ h'.outs = h.outs ∧
      ∀ x, h'.links.count x = h.links.count x + if x = l then 1 else 0 := by
  unfold Hugr.connect PortExists Hugr.numPorts
  constructor
  · constructor
    · rintro ⟨h', hc⟩
      split at hc
      case isFalse => cases hc
      case isTrue hcond =>
        simp only [Bool.and_eq_true, decide_eq_true_eq] at hcond
        exact ⟨⟨hcond.1.1.1, hcond.1.1.2⟩, hcond.1.2, hcond.2⟩
    · rintro ⟨⟨a, b⟩, c, d⟩
      exact ⟨{ h with links := h.links ++ [l] }, by simp [a, b, c, d]⟩
  · intro h' hc
    split at hc
    case isFalse => cases hc
    case isTrue =>
      cases hc
      refine ⟨⟨rfl, rfl, rfl, rfl, rfl, rfl, rfl⟩, rfl, rfl, fun x => ?_⟩
      simp only [List.count_append, List.count_singleton]
      congr 1
      by_cases hx : l = x
      · simp [hx]
      · have hx' : ¬ x = l := fun e => hx e.symm
        simp [hx, hx']

theorem link_at_iff (l : Link) (n : Nat) (dir : Dir) (port : Nat) :
    l.at n dir port = true ↔ l.end dir = (n, port) := by
  cases dir <;> simp [Link.at, Link.end]

/-- **C21** `disconnect` succeeds exactly if the port exists; it then removes exactly the links of
that port, and changes nothing else. -/
theorem C21_disconnect (h : Hugr Op Meta) (n : Nat) (dir : Dir) (port : Nat) :
    ((∃ h', h.disconnect n dir port = some h') ↔ PortExists h n dir port) ∧
    ∀ h', h.disconnect n dir port = some h' → SameButPorts h h' ∧ h'.ins = h.ins ∧ h'.outs = h.outs ∧
      ∀ x, h'.links.count x = if x.end dir = (n, port) then 0 else h.links.count x := by
  unfold Hugr.disconnect PortExists
  constructor
  · constructor
    · rintro ⟨h', hc⟩
      split at hc
      case isFalse => cases hc
      case isTrue hcond => simpa using hcond
    · intro hcond
      exact ⟨_, by rw [if_pos (by simpa using hcond)]⟩
  · intro h' hc
    split at hc
    case isFalse => cases hc
    case isTrue =>
      cases hc
      refine ⟨⟨rfl, rfl, rfl, rfl, rfl, rfl, rfl⟩, rfl, rfl, fun x => ?_⟩
      by_cases hx : x.end dir = (n, port)
      · rw [if_pos hx]
        apply List.count_eq_zero_of_not_mem
        simp only [List.mem_filter, not_and]
        intro _
        rw [(link_at_iff x n dir port).2 hx]; simp
      · rw [if_neg hx]
        apply List.count_filter
        cases hat : x.at n dir port with
        | false => rfl
        | true => exact absurd ((link_at_iff x n dir port).1 hat) hx

/-- **C21** A link seen from its source is seen from its target: the two ends agree, with
multiplicity. -/
theorem C21_symmetric (h : Hugr Op Meta) (n p m q : Nat) :
    (h.linkedInputs n p).count (m, q) = (h.linkedOutputs m q).count (n, p) ∧
    (h.linkedInputs n p).count (m, q) = h.links.count ⟨n, p, m, q⟩ := by
  have key : ∀ ls : List Link,
      ((ls.filter fun l => l.src = n && l.srcPort = p).map fun l => (l.dst, l.dstPort)).count (m, q) =
        ls.count ⟨n, p, m, q⟩ ∧
      ((ls.filter fun l => l.dst = m && l.dstPort = q).map fun l => (l.src, l.srcPort)).count (n, p) =
        ls.count ⟨n, p, m, q⟩ := by
    intro ls
    induction ls with
    | nil => simp
    | cons l ls ih =>
      obtain ⟨a, b, c, d⟩ := l
      simp only [List.filter_cons]
      rw [List.count_cons]
      constructor
      · by_cases h1 : a = n ∧ b = p
        · obtain ⟨rfl, rfl⟩ := h1
          simp only [decide_true, Bool.and_self, if_true, List.map_cons, List.count_cons, ih.1]
          congr 1
          by_cases h2 : (c, d) = (m, q)
          · simp only [Prod.mk.injEq] at h2; simp [h2.1, h2.2]
          · have : ¬ (c = m ∧ d = q) := by simpa using h2
            simp [this]
        · have h2 : (decide (a = n) && decide (b = p)) = false := by simpa using h1
          simp only [h2]
          rw [if_neg (by simp), ih.1]
          have : ((⟨a, b, c, d⟩ : Link) == ⟨n, p, m, q⟩) = false := by
            rw [beq_eq_false_iff_ne]
            intro e; cases e; exact h1 ⟨rfl, rfl⟩
          simp [this]
      · by_cases h1 : c = m ∧ d = q
        · obtain ⟨rfl, rfl⟩ := h1
          simp only [decide_true, Bool.and_self, if_true, List.map_cons, List.count_cons, ih.2]
          congr 1
          by_cases h2 : (a, b) = (n, p)
          · simp only [Prod.mk.injEq] at h2; simp [h2.1, h2.2]
          · have : ¬ (a = n ∧ b = p) := by simpa using h2
            simp [this]
        · have h2 : (decide (c = m) && decide (d = q)) = false := by simpa using h1
          simp only [h2]
          rw [if_neg (by simp), ih.2]
          have : ((⟨a, b, c, d⟩ : Link) == ⟨n, p, m, q⟩) = false := by
            rw [beq_eq_false_iff_ne]
            intro e; cases e; exact h1 ⟨rfl, rfl⟩
          simp [this]
  obtain ⟨h1, h2⟩ := key h.links
  exact ⟨h1.trans h2.symm, h1⟩

/-! ## Changing the number of ports -/

/-- **C21** `set_num_ports` sets the numbers of ports of that node and keeps exactly the links all of
whose ports still exist. -/
theorem C21_set_num_ports (h h' : Hugr Op Meta) (hl : LinksOk h) (n i o : Nat)
    (hs : h.setNumPorts n i o = some h') :
    SameButPorts h h' ∧
    (∀ m, h'.ins m = if m = n then i else h.ins m) ∧
    (∀ m, h'.outs m = if m = n then o else h.outs m) ∧
    (∀ x, PortExists h' x.src .outgoing x.srcPort ∧ PortExists h' x.dst .incoming x.dstPort →
      h'.links.count x = h.links.count x) ∧
    (∀ x ∈ h'.links,
      PortExists h' x.src .outgoing x.srcPort ∧ PortExists h' x.dst .incoming x.dstPort) := by
  unfold Hugr.setNumPorts at hs
  split at hs
  case isFalse => cases hs
  case isTrue =>
    cases hs
    refine ⟨⟨rfl, rfl, rfl, rfl, rfl, rfl, rfl⟩, fun m => rfl, fun m => rfl, ?_, ?_⟩
    · intro x hx
      simp only [Hugr.resizePorts, PortExists, Hugr.numPorts, upd] at hx ⊢
      apply List.count_filter
      obtain ⟨⟨_, h1⟩, _, h2⟩ := hx
      by_cases ha : x.src = n
      · by_cases hb : x.dst = n
        · rw [if_pos ha] at h1; rw [if_pos hb] at h2; simp [h1, h2]
        · rw [if_pos ha] at h1; simp [h1, hb]
      · by_cases hb : x.dst = n
        · rw [if_pos hb] at h2; simp [h2, ha]
        · simp [ha, hb]
    · intro x hx
      simp only [Hugr.resizePorts, PortExists, Hugr.numPorts, List.mem_filter, upd] at hx ⊢
      obtain ⟨hm, hc⟩ := hx
      obtain ⟨a, b, c, d⟩ := hl x hm
      simp only [Bool.and_eq_true, Bool.or_eq_true, bne_iff_ne, decide_eq_true_eq] at hc
      refine ⟨⟨a, ?_⟩, c, ?_⟩
      · split
        · rename_i e; exact hc.2.resolve_left (fun hne => hne e)
        · exact b
      · split
        · rename_i e; exact hc.1.resolve_left (fun hne => hne e)
        · exact d

theorem resize_linksOk {h : Hugr Op Meta} (hl : LinksOk h) {n : Nat} (hn : h.live n = true) (i o : Nat) :
    LinksOk (h.resizePorts n i o) := by
  have := (C21_set_num_ports h (h.resizePorts n i o) hl n i o (by simp [Hugr.setNumPorts, hn])).2.2.2.2
  rw [linksOk_iff]; exact this

/-- One of the two counts is set, the other left alone: nothing is cut off when growing. -/
theorem resize_grow {h : Hugr Op Meta} (hl : LinksOk h) (n i o : Nat) (hi : h.ins n ≤ i)
    (ho : h.outs n ≤ o) : (h.resizePorts n i o).links = h.links := by
  unfold Hugr.resizePorts
  simp only []
  rw [List.filter_eq_self]
  intro l hm
  obtain ⟨_, b, _, d⟩ := hl l hm
  simp only [Bool.and_eq_true, Bool.or_eq_true, bne_iff_ne, decide_eq_true_eq]
  constructor
  · by_cases e : l.dst = n
    · right; subst e; omega
    · exact Or.inl e
  · by_cases e : l.src = n
    · right; subst e; omega
    · exact Or.inl e

/-- **C21** `add_ports` changes the number of ports on one side by `amount` (not below zero), keeps
exactly the links all of whose ports still exist, and returns the range from the old to the new
number. -/
theorem C21_add_ports (h h' : Hugr Op Meta) (hl : LinksOk h) (n : Nat) (dir : Dir) (amount : Int)
    (r : Nat × Nat) (hs : h.addPorts n dir amount = some (h', r)) :
    SameButPorts h h' ∧
    r = (h.numPorts n dir, h'.numPorts n dir) ∧
    (∀ m d, h'.numPorts m d =
      if m = n ∧ d = dir then (h.numPorts n dir + amount).toNat else h.numPorts m d) ∧
    (∀ x, PortExists h' x.src .outgoing x.srcPort ∧ PortExists h' x.dst .incoming x.dstPort →
      h'.links.count x = h.links.count x) ∧
    (∀ x ∈ h'.links,
      PortExists h' x.src .outgoing x.srcPort ∧ PortExists h' x.dst .incoming x.dstPort) := by
  unfold Hugr.addPorts at hs
  split at hs
  case isFalse => cases hs
  case isTrue hn =>
    cases dir with
    | incoming =>
      simp only [Option.some.injEq, Prod.mk.injEq] at hs
      obtain ⟨rfl, rfl⟩ := hs
      obtain ⟨h1, h2, h3, h4, h5⟩ := C21_set_num_ports h (h.resizePorts n (addSigned (h.ins n) amount) (h.outs n)) hl n (addSigned (h.ins n) amount)
        (h.outs n) (by simp [Hugr.setNumPorts, hn])
      refine ⟨h1, by simp [Hugr.numPorts, Hugr.resizePorts, upd], ?_, h4, h5⟩
      intro m d
      cases d with
      | incoming =>
        simp only [Hugr.numPorts, h2, and_true]
        rfl
      | outgoing =>
        simp only [Hugr.numPorts, h3]
        by_cases e : m = n
        · simp [e]
        · simp [e]
    | outgoing =>
      simp only [Option.some.injEq, Prod.mk.injEq] at hs
      obtain ⟨rfl, rfl⟩ := hs
      obtain ⟨h1, h2, h3, h4, h5⟩ := C21_set_num_ports h (h.resizePorts n (h.ins n) (addSigned (h.outs n) amount)) hl n (h.ins n)
        (addSigned (h.outs n) amount) (by simp [Hugr.setNumPorts, hn])
      refine ⟨h1, by simp [Hugr.numPorts, Hugr.resizePorts, upd], ?_, h4, h5⟩
      intro m d
      cases d with
      | outgoing =>
        simp only [Hugr.numPorts, h3, and_true]
        rfl
      | incoming =>
        simp only [Hugr.numPorts, h2]
        by_cases e : m = n
        · simp [e]
        · simp [e]

/-! ## Inserting ports -/

theorem filter_map_perm {α : Type} (p : α → Bool) (f : α → α) (l : List α) :
    (l.filter (fun x => !p x) ++ (l.filter p).map f).Perm (l.map fun x => if p x then f x else x) := by
  induction l with
  | nil => simp
  | cons x l ih =>
    by_cases hx : p x = true
    · simp only [List.filter_cons, hx, Bool.not_true, if_true, List.map_cons]
      exact (List.perm_middle).trans (ih.cons _)
    · simp only [Bool.not_eq_true] at hx
      simp only [List.filter_cons, hx, Bool.not_false, if_true, List.map_cons, List.cons_append]
      exact ih.cons _

theorem portsDown_succ {index old : Nat} (h : index < old) :
    portsDown index old = portsDown (index + 1) old ++ [index] := by
  unfold portsDown
  obtain ⟨k, rfl⟩ : ∃ k, old = index + (k + 1) := ⟨old - index - 1, by omega⟩
  rw [show index + (k + 1) - index = k + 1 by omega, show index + (k + 1) - (index + 1) = k by omega,
    List.range_succ_eq_map, List.map_cons, List.reverse_cons]
  simp only [List.map_map, Nat.add_zero]
  congr 2
  apply List.map_congr_left
  intro x _
  simp only [Function.comp]; omega

theorem shiftPort_same (h : Hugr Op Meta) (n : Nat) (dir : Dir) (amount p : Nat) :
    SameButPorts h (h.shiftPort n dir amount p) ∧ (h.shiftPort n dir amount p).ins = h.ins ∧
    (h.shiftPort n dir amount p).outs = h.outs :=
  ⟨⟨rfl, rfl, rfl, rfl, rfl, rfl, rfl⟩, rfl, rfl⟩

theorem shiftFold_same (n : Nat) (dir : Dir) (amount : Nat) (ps : List Nat) (h : Hugr Op Meta) :
    let h' := ps.foldl (fun g p => g.shiftPort n dir amount p) h
    SameButPorts h h' ∧ h'.ins = h.ins ∧ h'.outs = h.outs := by
  induction ps generalizing h with
  | nil => exact ⟨⟨rfl, rfl, rfl, rfl, rfl, rfl, rfl⟩, rfl, rfl⟩
  | cons p ps ih =>
    obtain ⟨h1, h2, h3⟩ := ih (h.shiftPort n dir amount p)
    exact ⟨⟨h1.1, h1.2, h1.3, h1.4, h1.5, h1.6, h1.7⟩, h2, h3⟩

theorem renumber_succ (l : Link) (n : Nat) (dir : Dir) (index amount : Nat) :
    (if (l.renumber n dir (index + 1) amount).at n dir index then
      (l.renumber n dir (index + 1) amount).moveTo dir (index + amount)
     else l.renumber n dir (index + 1) amount) = l.renumber n dir index amount := by
  cases dir
  · simp only [Link.renumber, Link.at, Link.moveTo]
    by_cases h1 : l.dst = n
    · rcases Nat.lt_trichotomy index l.dstPort with h2 | h2 | h2
      · have ha : index + 1 ≤ l.dstPort := h2
        have hb : index ≤ l.dstPort := by omega
        have hc : l.dstPort + amount ≠ index := by omega
        simp [h1, ha, hb, hc]
      · have ha : ¬ l.dstPort + 1 ≤ l.dstPort := by omega
        subst h2
        simp [h1, ha]
      · have ha : ¬ index + 1 ≤ l.dstPort := by omega
        have hb : ¬ index ≤ l.dstPort := by omega
        have hc : l.dstPort ≠ index := by omega
        simp [h1, ha, hb, hc]
    · simp [h1]
  · simp only [Link.renumber, Link.at, Link.moveTo]
    by_cases h1 : l.src = n
    · rcases Nat.lt_trichotomy index l.srcPort with h2 | h2 | h2
      · have ha : index + 1 ≤ l.srcPort := h2
        have hb : index ≤ l.srcPort := by omega
        have hc : l.srcPort + amount ≠ index := by omega
        simp [h1, ha, hb, hc]
      · have ha : ¬ l.srcPort + 1 ≤ l.srcPort := by omega
        subst h2
        simp [h1, ha]
      · have ha : ¬ index + 1 ≤ l.srcPort := by omega
        have hb : ¬ index ≤ l.srcPort := by omega
        have hc : l.srcPort ≠ index := by omega
        simp [h1, ha, hb, hc]
    · simp [h1]

/-- The loop of `insert_ports` renumbers the links. -/
theorem shiftFold_links {n : Nat} {dir : Dir} {amount old : Nat} {h : Hugr Op Meta}
    (hold : ∀ l ∈ h.links, (l.end dir).1 = n → (l.end dir).2 < old) (k index : Nat)
    (hk : old - index = k) :
    ((portsDown index old).foldl (fun g p => g.shiftPort n dir amount p) h).links.Perm
      (h.links.map fun l => l.renumber n dir index amount) := by
  induction k generalizing index with
  | zero =>
    have : portsDown index old = [] := by unfold portsDown; rw [hk]; rfl
    rw [this]
    simp only [List.foldl_nil]
    have : h.links.map (fun l => l.renumber n dir index amount) = h.links.map id := by
      apply List.map_congr_left
      intro l hl
      have := hold l hl
      cases dir <;> simp only [Link.renumber, Link.end, id] at this ⊢
      · rw [if_neg]; rintro ⟨h1, h2⟩; have := this h1; omega
      · rw [if_neg]; rintro ⟨h1, h2⟩; have := this h1; omega
    rw [this, List.map_id]
  | succ k ih =>
    rw [portsDown_succ (by omega), List.foldl_append]
    simp only [List.foldl_cons, List.foldl_nil]
    have := ih (index + 1) (by omega)
    refine ((filter_map_perm _ _ _).trans (this.map _)).trans ?_
    rw [List.map_map]
    apply List.Perm.of_eq
    apply List.map_congr_left
    intro l _
    exact renumber_succ l n dir index amount

/-- **C21** `insert_ports` gives the node `amount` more ports on that side. Every link stays
attached to the port it was on, wherever this is after renumbering. -/
theorem C21_insert_ports (h h' : Hugr Op Meta) (hl : LinksOk h) (n : Nat) (dir : Dir)
    (index amount : Nat) (r : Nat × Nat) (hs : h.insertPorts n dir index amount = some (h', r)) :
    SameButPorts h h' ∧
    (∀ m d, h'.numPorts m d =
      if m = n ∧ d = dir then h.numPorts n dir + amount else h.numPorts m d) ∧
    h'.links.Perm (h.links.map fun l => l.renumber n dir index amount) ∧
    r = (index, index + amount) ∧ LinksOk h' := by
  unfold Hugr.insertPorts at hs
  cases ha : h.addPorts n dir amount with
  | none => rw [ha] at hs; cases hs
  | some q =>
    obtain ⟨h1, r1⟩ := q
    rw [ha] at hs
    simp only [Option.some.injEq, Prod.mk.injEq] at hs
    obtain ⟨hs, rfl⟩ := hs
    obtain ⟨a1, _, a3, _, _⟩ := C21_add_ports h h1 hl n dir amount r1 ha
    have hlinks : h1.links = h.links := by
      unfold Hugr.addPorts at ha
      split at ha
      case isFalse => cases ha
      case isTrue =>
        cases dir <;> simp only [Option.some.injEq, Prod.mk.injEq] at ha <;> rw [← ha.1]
        · exact resize_grow hl _ _ _ (by simp only [addSigned]; omega) (Nat.le_refl _)
        · exact resize_grow hl _ _ _ (Nat.le_refl _) (by simp only [addSigned]; omega)
    have hold : ∀ l ∈ h1.links, (l.end dir).1 = n → (l.end dir).2 < h.numPorts n dir := by
      intro l hm he
      rw [hlinks] at hm
      obtain ⟨_, b, _, d⟩ := hl l hm
      cases dir <;> simp only [Link.end, Hugr.numPorts] at he ⊢ <;> subst he
      · exact d
      · exact b
    obtain ⟨s1, s2, s3⟩ := shiftFold_same n dir amount (portsDown index (h.numPorts n dir)) h1
    have hperm := shiftFold_links (amount := amount) hold _ index rfl
    rw [hs] at s1 s2 s3 hperm
    rw [hlinks] at hperm
    have hnum : ∀ m d, h'.numPorts m d =
        if m = n ∧ d = dir then h.numPorts n dir + amount else h.numPorts m d := by
      intro m d
      have : h'.numPorts m d = h1.numPorts m d := by
        cases d <;> simp only [Hugr.numPorts, s2, s3]
      rw [this, a3]
      split
      · omega
      · rfl
    refine ⟨⟨s1.1.trans a1.1, s1.2.trans a1.2, s1.3.trans a1.3, s1.4.trans a1.4, s1.5.trans a1.5,
      s1.6.trans a1.6, s1.7.trans a1.7⟩, hnum, hperm, rfl, ?_⟩
    rw [linksOk_iff]
    intro l' hl'
    rw [hperm.mem_iff, List.mem_map] at hl'
    obtain ⟨l, hm, rfl⟩ := hl'
    have hlive : h'.live = h.live := s1.1.trans a1.1
    obtain ⟨a, b, c, d⟩ := hl l hm
    simp only [PortExists, hnum, hlive]
    cases dir
    · simp only [Link.renumber]
      by_cases he : l.dst = n
      · by_cases hi : index ≤ l.dstPort
        · simp only [he, hi, and_self, if_true]
          subst he
          refine ⟨⟨a, by simpa [Hugr.numPorts] using b⟩, c, ?_⟩
          simp only [Hugr.numPorts]; omega
        · simp only [hi, and_false, if_false]
          refine ⟨⟨a, by simpa [Hugr.numPorts] using b⟩, c, ?_⟩
          subst he
          simp only [Hugr.numPorts, and_self, if_true]; omega
      · simp only [he, false_and, if_false]
        exact ⟨⟨a, by simpa [Hugr.numPorts] using b⟩, c, d⟩
    · simp only [Link.renumber]
      by_cases he : l.src = n
      · by_cases hi : index ≤ l.srcPort
        · simp only [he, hi, and_self, if_true]
          subst he
          refine ⟨⟨a, ?_⟩, c, by simpa [Hugr.numPorts] using d⟩
          simp only [Hugr.numPorts]; omega
        · simp only [hi, and_false, if_false]
          refine ⟨⟨a, ?_⟩, c, by simpa [Hugr.numPorts] using d⟩
          subst he
          simp only [Hugr.numPorts, and_self, if_true]; omega
      · simp only [he, false_and, if_false]
        exact ⟨⟨a, b⟩, c, by simpa [Hugr.numPorts] using d⟩

end Verif.Graph
