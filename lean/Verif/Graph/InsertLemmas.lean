import Mathlib.Data.List.Flatten
import Mathlib.Data.List.Perm.Basic
import Mathlib.Data.List.Lookmap
import Verif.Graph.Insert

/-!
# Inserting: nodes and links
-/
namespace Verif.Graph

variable {Op Meta : Type}

/-- A link of the inserted graph under the node map; `none` if an end is not mapped. -/
def mapLink (map : List (Nat × Nat)) (l : Link) : Option Link :=
  match map.lookup l.src, map.lookup l.dst with
  | some a, some b => some { src := a, srcPort := l.srcPort, dst := b, dstPort := l.dstPort }
  | _, _ => none

theorem mapLink_some {map : List (Nat × Nat)} {l k : Link} (h : mapLink map l = some k) :
    map.lookup l.src = some k.src ∧ map.lookup l.dst = some k.dst ∧ k.srcPort = l.srcPort ∧
      k.dstPort = l.dstPort := by
  unfold mapLink at h
  cases h1 : map.lookup l.src with
  | none => simp [h1] at h
  | some a =>
    cases h2 : map.lookup l.dst with
    | none => simp [h1, h2] at h
    | some b => simp only [h1, h2, Option.some.injEq] at h; subst h; simp

theorem mem_of_lookup {l : List (Nat × Nat)} {k v : Nat} (h : l.lookup k = some v) : (k, v) ∈ l := by
  induction l with
  | nil => simp at h
  | cons e l ih =>
    obtain ⟨a, b⟩ := e
    rw [List.lookup_cons] at h
    by_cases hk : k = a
    · subst hk; simp only [beq_self_eq_true] at h; cases h; simp
    · have : (k == a) = false := by simpa using hk
      rw [this] at h
      exact List.mem_cons_of_mem _ (ih h)

theorem lookup_of_mem {l : List (Nat × Nat)} (hl : (l.map Prod.fst).Nodup) {k v : Nat}
    (h : (k, v) ∈ l) : l.lookup k = some v := by
  induction l with
  | nil => simp at h
  | cons e l ih =>
    obtain ⟨a, b⟩ := e
    simp only [List.map_cons, List.nodup_cons] at hl
    rw [List.lookup_cons]
    rcases List.mem_cons.1 h with h' | h'
    · cases h'; simp
    · have hk : k ≠ a := by
        rintro rfl
        exact hl.1 (List.mem_map_of_mem (f := Prod.fst) h')
      have : (k == a) = false := by simpa using hk
      rw [this]
      exact ih hl.2 h'

theorem lookup_none_iff {l : List (Nat × Nat)} {k : Nat} :
    l.lookup k = none ↔ k ∉ l.map Prod.fst := by
  induction l with
  | nil => simp
  | cons e l ih =>
    obtain ⟨a, b⟩ := e
    rw [List.lookup_cons]
    by_cases hk : k = a
    · subst hk; simp
    · have : (k == a) = false := by simpa using hk
      rw [this]
      simp [ih, hk]

theorem filterMap_split {α β : Type} (f : α → Option β) (p : α → Prop) [DecidablePred p] (l : List α) :
    (l.filterMap f).Perm
      (l.filterMap (fun x => if p x then f x else none) ++
        l.filterMap (fun x => if p x then none else f x)) := by
  induction l with
  | nil => simp
  | cons x l ih =>
    by_cases hp : p x
    · simp only [List.filterMap_cons, hp, if_true]
      cases f x with
      | none => exact ih
      | some y => exact ih.cons y
    · simp only [List.filterMap_cons, hp, if_false]
      cases f x with
      | none => exact ih
      | some y =>
        refine (ih.cons y).trans ?_
        exact List.perm_middle.symm

theorem flatMap_single {β : Type} (n k : Nat) (hk : k < n) (L : Nat → List β) :
    (List.range n).flatMap (fun t => if k = t then L t else []) = L k := by
  induction n with
  | zero => omega
  | succ n ih =>
    rw [List.range_succ, List.flatMap_append]
    by_cases hkn : k = n
    · subst hkn
      have : (List.range k).flatMap (fun t => if k = t then L t else []) = [] := by
        rw [List.flatMap_eq_nil_iff]
        intro t ht
        rw [List.mem_range] at ht
        rw [if_neg (by omega)]
      rw [this]; simp
    · rw [ih (by omega)]; simp [hkn]

theorem flatMap_none {β : Type} (n : Nat) (L : Nat → List β) (h : ∀ t, L t = []) :
    (List.range n).flatMap L = [] := by
  rw [List.flatMap_eq_nil_iff]; intro t _; exact h t

/-- Going through the ports of a node, and the elements at each port, is going through the elements
at the node, in another order. -/
theorem ports_perm {α β : Type} (l : List α) (P : α → Bool) (port : α → Nat) (n : Nat)
    (g : Nat → α → Option β) (hn : ∀ x ∈ l, P x = true → port x < n) :
    ((List.range n).flatMap fun t => (l.filter fun x => P x && port x == t).filterMap (g t)).Perm
      (l.filterMap fun x => if P x then g (port x) x else none) := by
  induction l with
  | nil => simp
  | cons x l ih =>
    have ih' := ih fun y hy => hn y (List.mem_cons_of_mem _ hy)
    by_cases hP : P x = true
    · have h1 : ∀ t, ((x :: l).filter fun x => P x && port x == t).filterMap (g t) =
          (if port x = t then (g t x).toList else []) ++
            (l.filter fun x => P x && port x == t).filterMap (g t) := by
        intro t
        by_cases ht : port x = t
        · have hc : (P x && port x == t) = true := by simp [hP, ht]
          rw [List.filter_cons_of_pos (by simpa using hc), if_pos ht, List.filterMap_cons]
          cases g t x <;> simp
        · have hc : ¬ (P x && port x == t) = true := by simp [ht]
          rw [List.filter_cons_of_neg (by simpa using hc), if_neg ht]; simp
      simp only [h1]
      refine (List.flatMap_append_perm _ _ _).symm.trans ?_
      rw [flatMap_single n (port x) (hn x (by simp) hP) (fun t => (g t x).toList)]
      rw [List.filterMap_cons]
      simp only [hP, if_true]
      cases g (port x) x with
      | none => simpa using ih'
      | some y => simpa using ih'.cons y
    · have h1 : ∀ t, ((x :: l).filter fun x => P x && port x == t).filterMap (g t) =
            (l.filter fun x => P x && port x == t).filterMap (g t) := by
        intro t
        rw [List.filter_cons_of_neg (by simp [hP])]
      simp only [h1]
      rw [List.filterMap_cons]
      simp only [hP]
      exact ih'

/-- The links made for one node are the links of the inserted graph that it completes. -/
theorem newLinks_perm {other : Hugr Op Meta} (hl : LinksOk other) {map : List (Nat × Nat)}
    {old new : Nat} (hk : map.lookup old = none) :
    (other.links.filterMap (mapLink ((old, new) :: map))).Perm
      (other.links.filterMap (mapLink map) ++ newLinks other ((old, new) :: map) old new) := by
  have hself : ((old, new) :: map).lookup old = some new := by simp
  have hne : ∀ x, x ≠ old → ((old, new) :: map).lookup x = map.lookup x := by
    intro x hx
    rw [List.lookup_cons]
    have : (x == old) = false := by simpa using hx
    rw [this]
  -- links into the node
  have hA : ((List.range (other.ins old)).flatMap (fun tgt =>
        (other.linkedOutputs old tgt).filterMap fun q =>
          (((old, new) :: map).lookup q.1).map fun neigh =>
            ({ src := neigh, srcPort := q.2, dst := new, dstPort := tgt } : Link))).Perm
      (other.links.filterMap fun l => if l.dst = old then mapLink ((old, new) :: map) l else none) := by
    have h1 := ports_perm other.links (fun l => l.dst == old) Link.dstPort (other.ins old)
      (fun tgt l => (((old, new) :: map).lookup l.src).map fun neigh =>
        ({ src := neigh, srcPort := l.srcPort, dst := new, dstPort := tgt } : Link))
      (by
        intro l hm hd
        have := (hl l hm).2.2.2
        rw [beq_iff_eq] at hd
        rw [← hd]; exact this)
    have h2 : ∀ tgt, (other.linkedOutputs old tgt).filterMap (fun q =>
          (((old, new) :: map).lookup q.1).map fun neigh =>
            ({ src := neigh, srcPort := q.2, dst := new, dstPort := tgt } : Link)) =
        (other.links.filter fun l => l.dst == old && l.dstPort == tgt).filterMap
          (fun l => (((old, new) :: map).lookup l.src).map fun neigh =>
            ({ src := neigh, srcPort := l.srcPort, dst := new, dstPort := tgt } : Link)) := by
      intro tgt
      unfold Hugr.linkedOutputs
      rw [List.filterMap_map]
      rfl
    simp only [h2]
    refine h1.trans (List.Perm.of_eq ?_)
    apply List.filterMap_congr
    intro l _
    by_cases hd : l.dst = old
    · simp only [hd, beq_self_eq_true, if_true]
      unfold mapLink
      rw [hd, hself]
      cases ((old, new) :: map).lookup l.src <;> rfl
    · simp [hd]
  have hB : ((List.range (other.outs old)).flatMap (fun src =>
        (other.linkedInputs old src).filterMap fun q =>
          if q.1 = old then none
          else (((old, new) :: map).lookup q.1).map fun neigh =>
            ({ src := new, srcPort := src, dst := neigh, dstPort := q.2 } : Link))).Perm
      (other.links.filterMap fun l =>
        if l.dst = old then none else if l.src = old then mapLink ((old, new) :: map) l else none) := by
    have h1 := ports_perm other.links (fun l => l.src == old) Link.srcPort (other.outs old)
      (fun src l => if l.dst = old then none
          else (((old, new) :: map).lookup l.dst).map fun neigh =>
            ({ src := new, srcPort := src, dst := neigh, dstPort := l.dstPort } : Link))
      (by
        intro l hm hd
        have := (hl l hm).2.1
        rw [beq_iff_eq] at hd
        rw [← hd]; exact this)
    have h2 : ∀ src, (other.linkedInputs old src).filterMap (fun q =>
          if q.1 = old then none
          else (((old, new) :: map).lookup q.1).map fun neigh =>
            ({ src := new, srcPort := src, dst := neigh, dstPort := q.2 } : Link)) =
        (other.links.filter fun l => l.src == old && l.srcPort == src).filterMap
          (fun l => if l.dst = old then none
          else (((old, new) :: map).lookup l.dst).map fun neigh =>
            ({ src := new, srcPort := src, dst := neigh, dstPort := l.dstPort } : Link)) := by
      intro src
      unfold Hugr.linkedInputs
      rw [List.filterMap_map]
      rfl
    simp only [h2]
    refine h1.trans (List.Perm.of_eq ?_)
    apply List.filterMap_congr
    intro l _
    by_cases hd : l.dst = old
    · simp [hd]
    · by_cases hs : l.src = old
      · simp only [hs, beq_self_eq_true, if_true, hd, if_false]
        unfold mapLink
        rw [hs, hself]
        cases ((old, new) :: map).lookup l.dst <;> rfl
      · simp [hs]
  refine (filterMap_split _ (fun l => l.dst = old) other.links).trans ?_
  refine ((List.Perm.refl _).append
    (filterMap_split _ (fun l => l.src = old) other.links)).trans ?_
  have hC : (other.links.filterMap fun x =>
      if x.src = old then none else if x.dst = old then none else mapLink ((old, new) :: map) x) =
      other.links.filterMap (mapLink map) := by
    apply List.filterMap_congr
    intro l _
    by_cases hs : l.src = old
    · simp [hs, mapLink, hk]
    · by_cases hd : l.dst = old
      · simp only [hs, hd, if_false, if_true, mapLink, hk]
        cases map.lookup l.src <;> rfl
      · simp only [hs, hd, if_false, mapLink]
        rw [hne _ hs, hne _ hd]
  rw [hC]
  have hB' : (other.links.filterMap fun x =>
      if x.src = old then if x.dst = old then none else mapLink ((old, new) :: map) x else none) =
      other.links.filterMap fun l =>
        if l.dst = old then none else if l.src = old then mapLink ((old, new) :: map) l else none := by
    apply List.filterMap_congr
    intro l _
    by_cases hs : l.src = old <;> by_cases hd : l.dst = old <;> simp [hs, hd]
  rw [hB']
  unfold newLinks
  refine List.Perm.trans ?_ (List.perm_append_comm)
  rw [List.append_assoc]
  exact hA.symm.append (hB.symm.append (List.Perm.refl _))

theorem connectAll_ok (ls : List Link) (h : Hugr Op Meta)
    (hok : ∀ l ∈ ls, h.live l.src = true ∧ l.srcPort < h.outs l.src ∧ h.live l.dst = true ∧
      l.dstPort < h.ins l.dst) :
    connectAll h ls = some { h with links := h.links ++ ls } := by
  induction ls generalizing h with
  | nil => simp [connectAll]
  | cons l ls ih =>
    obtain ⟨h1, h2, h3, h4⟩ := hok l (by simp)
    have hc : h.connect l = some { h with links := h.links ++ [l] } := by
      unfold Hugr.connect
      simp [h1, h2, h3, h4]
    simp only [connectAll, hc]
    rw [ih]
    · simp
    · intro k hk; exact hok k (List.mem_cons_of_mem _ hk)

/-- After some rounds of the first loop. -/
structure CopyInv (host other : Hugr Op Meta) (h : Hugr Op Meta) (map : List (Nat × Nat)) : Prop where
  keys : (map.map Prod.fst).Nodup
  vals : (map.map Prod.snd).Nodup
  fresh : ∀ e ∈ map, host.live e.2 = false
  live : ∀ m, h.live m = true ↔ host.live m = true ∨ m ∈ map.map Prod.snd
  ports : ∀ e ∈ map, h.ins e.2 = other.ins e.1 ∧ h.outs e.2 = other.outs e.1
  rest : ∀ m, m ∉ map.map Prod.snd →
    h.ins m = host.ins m ∧ h.outs m = host.outs m ∧ h.ops m = host.ops m
  links : h.links.Perm (host.links ++ other.links.filterMap (mapLink map))
  same : h.hier = host.hier ∧ h.moduleRoot = host.moduleRoot ∧ h.entrypoint = host.entrypoint ∧
    h.metadata = host.metadata
  cap : host.cap ≤ h.cap ∧ ∀ m ∈ map.map Prod.snd, m < h.cap

theorem CopyInv.linksOk {host other h : Hugr Op Meta} {map : List (Nat × Nat)}
    (hh : LinksOk host) (ho : LinksOk other) (hi : CopyInv host other h map) : LinksOk h := by
  intro l hm
  rcases List.mem_append.1 (hi.links.mem_iff.1 hm) with hm | hm
  · obtain ⟨h1, h2, h3, h4⟩ := hh l hm
    have hn : ∀ m, host.live m = true → m ∉ map.map Prod.snd := by
      intro m hm hmem
      obtain ⟨e, he, rfl⟩ := List.mem_map.1 hmem
      rw [hi.fresh e he] at hm; cases hm
    refine ⟨(hi.live _).2 (Or.inl h1), ?_, (hi.live _).2 (Or.inl h3), ?_⟩
    · rw [(hi.rest _ (hn _ h1)).2.1]; exact h2
    · rw [(hi.rest _ (hn _ h3)).1]; exact h4
  · obtain ⟨k, hk, hkl⟩ := List.mem_filterMap.1 hm
    obtain ⟨h1, h2, h3, h4⟩ := mapLink_some hkl
    obtain ⟨g1, g2, g3, g4⟩ := ho k hk
    have m1 := mem_of_lookup h1
    have m2 := mem_of_lookup h2
    refine ⟨(hi.live _).2 (Or.inr (List.mem_map.2 ⟨_, m1, rfl⟩)), ?_,
      (hi.live _).2 (Or.inr (List.mem_map.2 ⟨_, m2, rfl⟩)), ?_⟩
    · have := (hi.ports _ m1).2; simp only [] at this
      rw [this, h3]; exact g2
    · have := (hi.ports _ m2).1; simp only [] at this
      rw [this, h4]; exact g4

theorem insertNodes_inv (I : OpInfo Op) {host other : Hugr Op Meta} (hh : LinksOk host)
    (ho : LinksOk other) (pairs : List (Nat × Nat)) (h : Hugr Op Meta) (map : List (Nat × Nat))
    (hi : CopyInv host other h map) (hkeys : (pairs.map Prod.fst).Nodup)
    (hdisj : ∀ x ∈ pairs.map Prod.fst, x ∉ map.map Prod.fst)
    (hvals : (pairs.map Prod.snd).Nodup) (hvd : ∀ x ∈ pairs.map Prod.snd, x ∉ map.map Prod.snd)
    (hfresh : ∀ x ∈ pairs.map Prod.snd, host.live x = false) :
    ∃ h', insertNodes I other pairs h map = .done h' (pairs.reverse ++ map) ∧
      CopyInv host other h' (pairs.reverse ++ map) := by
  induction pairs generalizing h map with
  | nil => exact ⟨h, by simp [insertNodes], by simpa using hi⟩
  | cons e rest ih =>
    obtain ⟨old, new⟩ := e
    simp only [List.map_cons, List.nodup_cons] at hkeys hvals
    have hold : old ∉ map.map Prod.fst := hdisj old (by simp)
    have hnew : new ∉ map.map Prod.snd := hvd new (by simp)
    have hnl : host.live new = false := hfresh new (by simp)
    have hl : h.live new = false := by
      cases hc : h.live new with
      | false => rfl
      | true =>
        rcases (hi.live new).1 hc with h1 | h1
        · rw [hnl] at h1; cases h1
        · exact absurd h1 hnew
    have hlk : LinksOk h := hi.linksOk hh ho
    have hklook : map.lookup old = none := lookup_none_iff.2 hold
    -- the node
    obtain ⟨h1, hadd, hh1⟩ : ∃ h1, h.addNode I new I.default = some h1 ∧ h1 = { h with
        cap := max h.cap (new + 1)
        live := upd h.live new true
        ins := upd h.ins new (I.inputs I.default)
        outs := upd h.outs new (I.outputs I.default)
        ops := upd h.ops new I.default } := by
      refine ⟨_, ?_, rfl⟩
      unfold Hugr.addNode; rw [if_neg (by rw [hl]; simp)]
    have hlinks1 : ∀ l ∈ h.links, l.src ≠ new ∧ l.dst ≠ new := by
      intro l hm
      obtain ⟨g1, _, g3, _⟩ := hlk l hm
      constructor
      · rintro hc; rw [hc, hl] at g1; cases g1
      · rintro hc; rw [hc, hl] at g3; cases g3
    obtain ⟨h2, hset, hh2⟩ : ∃ h2, h1.setNumPorts new (other.ins old) (other.outs old) = some h2 ∧
        h2 = { h with
          cap := max h.cap (new + 1)
          live := upd h.live new true
          ins := upd h.ins new (other.ins old)
          outs := upd h.outs new (other.outs old)
          ops := upd h.ops new I.default } := by
      refine ⟨_, ?_, rfl⟩
      unfold Hugr.setNumPorts
      rw [hh1]
      simp only [upd_same, if_true]
      unfold Hugr.resizePorts
      simp only [Option.some.injEq]
      congr 1
      · funext i; simp only [upd]; split <;> rfl
      · funext i; simp only [upd]; split <;> rfl
      · apply List.filter_eq_self.2
        intro l hm
        obtain ⟨g1, g2⟩ := hlinks1 l hm
        simp [g1, g2]
    have hperm := newLinks_perm (other := other) ho (map := map) (new := new) hklook
    have hconn : connectAll h2 (newLinks other ((old, new) :: map) old new) =
        some { h2 with links := h2.links ++ newLinks other ((old, new) :: map) old new } := by
      apply connectAll_ok
      intro l hm
      have hm' : l ∈ other.links.filterMap (mapLink ((old, new) :: map)) :=
        hperm.mem_iff.2 (List.mem_append.2 (Or.inr hm))
      obtain ⟨k, hk, hkl⟩ := List.mem_filterMap.1 hm'
      obtain ⟨q1, q2, q3, q4⟩ := mapLink_some hkl
      obtain ⟨g1, g2, g3, g4⟩ := ho k hk
      have key : ∀ x n, ((old, new) :: map).lookup x = some n →
          h2.live n = true ∧ h2.ins n = other.ins x ∧ h2.outs n = other.outs x := by
        intro x n hx
        rcases List.mem_cons.1 (mem_of_lookup hx) with hx' | hx'
        · cases hx'; rw [hh2]; simp only [upd_same]; exact ⟨trivial, trivial, trivial⟩
        · have hnn : n ≠ new := by
            rintro rfl; exact hnew (List.mem_map_of_mem (f := Prod.snd) hx')
          have := hi.ports _ hx'
          rw [hh2]; simp only [upd_ne _ _ hnn]
          exact ⟨(hi.live n).2 (Or.inr (List.mem_map_of_mem (f := Prod.snd) hx')), this.1, this.2⟩
      obtain ⟨a1, _, a3⟩ := key _ _ q1
      obtain ⟨b1, b2, _⟩ := key _ _ q2
      exact ⟨a1, by rw [a3, q3]; exact g2, b1, by rw [b2, q4]; exact g4⟩
    have hinv : CopyInv host other
        { h2 with links := h2.links ++ newLinks other ((old, new) :: map) old new }
        ((old, new) :: map) := by
      subst hh2
      refine ⟨?_, ?_, ?_, ?_, ?_, ?_, ?_, hi.same, ?_⟩
      · simp only [List.map_cons, List.nodup_cons]; exact ⟨hold, hi.keys⟩
      · simp only [List.map_cons, List.nodup_cons]; exact ⟨hnew, hi.vals⟩
      · intro e he
        rcases List.mem_cons.1 he with rfl | he
        · exact hnl
        · exact hi.fresh e he
      · intro m
        simp only [List.map_cons, List.mem_cons]
        by_cases hm : m = new
        · subst hm; simp [upd_same]
        · rw [upd_ne _ _ hm, hi.live]; simp [hm]
      · intro e he
        rcases List.mem_cons.1 he with rfl | he
        · simp [upd_same]
        · have hne : e.2 ≠ new := by
            rintro hc; exact hnew (hc ▸ List.mem_map.2 ⟨_, he, rfl⟩)
          simp only [upd_ne _ _ hne]
          exact hi.ports e he
      · intro m hm
        simp only [List.map_cons, List.mem_cons, not_or] at hm
        simp only [upd_ne _ _ hm.1]
        exact hi.rest m hm.2
      · refine List.Perm.trans ?_ ((List.Perm.refl host.links).append hperm.symm)
        rw [← List.append_assoc]
        exact hi.links.append (List.Perm.refl _)
      · refine ⟨?_, ?_⟩
        · have := hi.cap.1; simp only []; omega
        · intro m hm
          simp only [List.map_cons, List.mem_cons] at hm
          rcases hm with rfl | hm
          · simp only []; omega
          · have := hi.cap.2 m hm; simp only []; omega
    obtain ⟨h', hr, hi'⟩ := ih _ _ hinv hkeys.2
      (by
        intro x hx hc
        simp only [List.map_cons, List.mem_cons] at hc
        rcases hc with rfl | hc
        · exact hkeys.1 hx
        · exact hdisj x (List.mem_cons_of_mem _ hx) hc)
      hvals.2
      (by
        intro x hx hc
        simp only [List.map_cons, List.mem_cons] at hc
        rcases hc with rfl | hc
        · exact hvals.1 hx
        · exact hvd x (List.mem_cons_of_mem _ hx) hc)
      (fun x hx => hfresh x (List.mem_cons_of_mem _ hx))
    refine ⟨h', ?_, by simpa using hi'⟩
    simp only [insertNodes, hadd, hklook, Option.isSome_none, Bool.false_eq_true, if_false, hset, hconn]
    rw [hr]
    simp

end Verif.Graph
