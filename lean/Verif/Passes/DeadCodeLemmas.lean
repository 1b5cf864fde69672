import Mathlib.Algebra.BigOperators.Group.List.Basic
import Mathlib.Algebra.Order.BigOperators.Group.List
import Mathlib.Data.List.Nodup
import Mathlib.Tactic.Common
import Verif.Passes.DeadCodeSpec

/-!
# Lemmas on the search for needed nodes
-/
namespace Verif.Passes

open Verif.Graph

variable {Meta : Type}

/-- The cache holds right answers. -/
def CacheOk (children : Nat → List Nat) (callback : Nat → PreserveNode)
    (cache : Nat → Option Bool) : Prop :=
  ∀ n b, cache n = some b → (b = true ↔ Forced children callback n)

theorem cacheOk_upd {children : Nat → List Nat} {callback : Nat → PreserveNode}
    {cache : Nat → Option Bool} (hc : CacheOk children callback cache) {n : Nat} {b : Bool}
    (hb : b = true ↔ Forced children callback n) : CacheOk children callback (upd cache n (some b)) := by
  intro m b' hm
  by_cases hmn : m = n
  · subst hmn; rw [upd_same] at hm; cases hm; exact hb
  · rw [upd_ne _ _ hmn] at hm; exact hc m b' hm

theorem anyCached_spec {children : Nat → List Nat} {callback : Nat → PreserveNode}
    {f : (Nat → Option Bool) → Nat → Bool × (Nat → Option Bool)} (cs : List Nat)
    (cache : Nat → Option Bool) (hc : CacheOk children callback cache)
    (hf : ∀ c ∈ cs, ∀ cache, CacheOk children callback cache →
      ((f cache c).1 = true ↔ Forced children callback c) ∧ CacheOk children callback (f cache c).2) :
    ((anyCached f cache cs).1 = true ↔ ∃ c ∈ cs, Forced children callback c) ∧
      CacheOk children callback (anyCached f cache cs).2 := by
  induction cs generalizing cache with
  | nil => simp [anyCached, hc]
  | cons c cs ih =>
    have h1 := hf c (by simp) cache hc
    unfold anyCached
    generalize f cache c = r at h1
    obtain ⟨b, cache'⟩ := r
    cases b with
    | true =>
      simp only at h1 ⊢
      exact ⟨⟨fun _ => ⟨c, by simp, h1.1.1 trivial⟩, fun _ => trivial⟩, h1.2⟩
    | false =>
      simp only at h1 ⊢
      have h2 := ih cache' h1.2 (fun c' hc' => hf c' (List.mem_cons_of_mem _ hc'))
      refine ⟨?_, h2.2⟩
      rw [h2.1]
      constructor
      · rintro ⟨c', hc', hf'⟩; exact ⟨c', List.mem_cons_of_mem _ hc', hf'⟩
      · rintro ⟨c', hc', hf'⟩
        rcases List.mem_cons.1 hc' with rfl | hc'
        · exact absurd (h1.1.2 hf') (by simp)
        · exact ⟨c', hc', hf'⟩

theorem forced_iff {children : Nat → List Nat} {callback : Nat → PreserveNode} (n : Nat) :
    Forced children callback n ↔ callback n = .mustKeep ∨
      callback n = .deferToChildren ∧ ∃ c ∈ children n, Forced children callback c := by
  constructor
  · intro hf
    cases hf with
    | keep hk => exact Or.inl hk
    | child h1 h2 h3 => exact Or.inr ⟨h1, _, h2, h3⟩
  · rintro (hk | ⟨h1, c, h2, h3⟩)
    · exact .keep hk
    · exact .child h1 h2 h3

theorem mustPreserve_aux {h : Hugr Ops.Op Meta} (ht : IsTree h) (callback : Nat → PreserveNode)
    (fuel : Nat) (cache : Nat → Option Bool) (n : Nat) (L : List Nat)
    (hc : CacheOk h.children callback cache) (hL : L.Nodup)
    (hLl : ∀ x ∈ L, h.live x = true ∧ Above h.hier.parent n x) (hn : n ∈ L)
    (hf : h.cap + 1 ≤ fuel + L.length) :
    ((mustPreserve h.children callback fuel cache n).1 = true ↔ Forced h.children callback n) ∧
      CacheOk h.children callback (mustPreserve h.children callback fuel cache n).2 := by
  induction fuel generalizing cache n L with
  | zero =>
    have := nodup_live_length ht hL fun x hx => (hLl x hx).1
    omega
  | succ fuel ih =>
    unfold mustPreserve
    cases hcn : cache n with
    | some b => exact ⟨hc n b hcn, hc⟩
    | none =>
      simp only
      cases hcb : callback n with
      | mustKeep =>
        have : (true = true) ↔ Forced h.children callback n := ⟨fun _ => .keep hcb, fun _ => rfl⟩
        exact ⟨this, cacheOk_upd hc this⟩
      | canRemoveIgnoringChildren =>
        have : (false = true) ↔ Forced h.children callback n := by
          rw [forced_iff, hcb]; simp
        exact ⟨this, cacheOk_upd hc this⟩
      | deferToChildren =>
        simp only
        have hany := anyCached_spec (children := h.children) (callback := callback)
          (f := mustPreserve h.children callback fuel) (h.children n) cache hc (by
            intro c hcm cache' hc'
            have hp : h.hier.parent c = some n := (ht.child_iff n c).1 hcm
            have hcl := (ht.parent_live c n hp).1
            refine ih cache' c (c :: L) hc' ?_ ?_ (by simp) (by simp only [List.length_cons]; omega)
            · rw [List.nodup_cons]
              exact ⟨fun hm => ht.acyclic c n hp (hLl c hm).2, hL⟩
            · intro x hx
              rcases List.mem_cons.1 hx with rfl | hx
              · exact ⟨hcl, .refl _⟩
              · exact ⟨(hLl x hx).1, .step hp (hLl x hx).2⟩)
        generalize anyCached (mustPreserve h.children callback fuel) cache (h.children n) = r at hany
        obtain ⟨b, cache'⟩ := r
        simp only at hany ⊢
        have : b = true ↔ Forced h.children callback n := by
          rw [hany.1, forced_iff n, hcb]; simp
        exact ⟨this, cacheOk_upd hany.2 this⟩

theorem mustPreserve_spec {h : Hugr Ops.Op Meta} (ht : IsTree h) (callback : Nat → PreserveNode)
    (cache : Nat → Option Bool) (n : Nat) (hn : h.live n = true)
    (hc : CacheOk h.children callback cache) :
    ((mustPreserve h.children callback (h.cap + 1) cache n).1 = true ↔
      Forced h.children callback n) ∧
      CacheOk h.children callback (mustPreserve h.children callback (h.cap + 1) cache n).2 :=
  mustPreserve_aux ht callback (h.cap + 1) cache n [n] hc (by simp)
    (by intro x hx; simp only [List.mem_singleton] at hx; subst hx; exact ⟨hn, .refl _⟩) (by simp)
    (by simp)

theorem keptWithParent_iff (op : Ops.Op) : keptWithParent op = true ↔ Structural op := by
  cases op <;> simp [keptWithParent, Structural]

theorem neededChildren_spec {h : Hugr Ops.Op Meta} (ht : IsTree h) (callback : Nat → PreserveNode)
    (cs : List Nat) (cache : Nat → Option Bool) (hl : ∀ c ∈ cs, h.live c = true)
    (hc : CacheOk h.children callback cache) :
    (∀ c, c ∈ (neededChildren h callback cache cs).1 ↔
      c ∈ cs ∧ (Forced h.children callback c ∨ Structural (h.ops c))) ∧
    (neededChildren h callback cache cs).1.length ≤ cs.length ∧
    CacheOk h.children callback (neededChildren h callback cache cs).2 := by
  induction cs generalizing cache with
  | nil => simp [neededChildren, hc]
  | cons c cs ih =>
    have h1 := mustPreserve_spec ht callback cache c (hl c (by simp)) hc
    unfold neededChildren
    generalize mustPreserve h.children callback (h.cap + 1) cache c = r at h1
    obtain ⟨b, cache'⟩ := r
    simp only at h1 ⊢
    have h2 := ih cache' (fun c' hc' => hl c' (List.mem_cons_of_mem _ hc')) h1.2
    generalize neededChildren h callback cache' cs = r2 at h2
    obtain ⟨pushed, cache''⟩ := r2
    simp only at h2 ⊢
    have hb : (b || keptWithParent (h.ops c)) = true ↔
        (Forced h.children callback c ∨ Structural (h.ops c)) := by
      rw [Bool.or_eq_true, h1.1, keptWithParent_iff]
    refine ⟨?_, ?_, h2.2.2⟩
    · intro x
      split
      · rename_i hbt
        rw [List.mem_cons, h2.1, List.mem_cons]
        constructor
        · rintro (rfl | ⟨h3, h4⟩)
          · exact ⟨Or.inl rfl, hb.1 hbt⟩
          · exact ⟨Or.inr h3, h4⟩
        · rintro ⟨rfl | h3, h4⟩
          · exact Or.inl rfl
          · exact Or.inr ⟨h3, h4⟩
      · rename_i hbt
        rw [h2.1, List.mem_cons]
        constructor
        · rintro ⟨h3, h4⟩; exact ⟨Or.inr h3, h4⟩
        · rintro ⟨rfl | h3, h4⟩
          · exact absurd (hb.2 h4) hbt
          · exact ⟨h3, h4⟩
    · split
      · simp only [List.length_cons]; omega
      · simp only [List.length_cons]; omega

theorem linearConsumers_mem (h : Hugr Ops.Op Meta) (n : Nat) (ts : List Types.Ty) (port m : Nat) :
    m ∈ linearConsumers h n port ts ↔ ∃ l ∈ h.links, l.src = n ∧ l.dst = m ∧
      ∃ i t, l.srcPort = port + i ∧ ts[i]? = some t ∧ t.bound = .linear := by
  induction ts generalizing port with
  | nil => simp [linearConsumers]
  | cons t ts ih =>
    unfold linearConsumers
    rw [List.mem_append, ih]
    have hcop : (!t.copyable) = true ↔ t.bound = .linear := by
      unfold Types.Ty.copyable
      cases t.bound <;> simp [Types.Bound.contains]
    constructor
    · rintro (hm | ⟨l, h1, h2, h3, i, t', h4, h5, h6⟩)
      · split at hm
        · rename_i hb
          simp only [Hugr.linkedInputs, List.map_map, List.mem_map, List.mem_filter,
            Bool.and_eq_true, decide_eq_true_eq] at hm
          obtain ⟨l, ⟨h1, h2, h3⟩, h4⟩ := hm
          exact ⟨l, h1, h2, h4, 0, t, by simpa using h3, by simp, hcop.1 hb⟩
        · cases hm
      · exact ⟨l, h1, h2, h3, i + 1, t', by omega, by simpa using h5, h6⟩
    · rintro ⟨l, h1, h2, h3, i, t', h4, h5, h6⟩
      cases i with
      | zero =>
        left
        simp only [List.getElem?_cons_zero, Option.some.injEq] at h5
        subst h5
        rw [if_pos (hcop.2 h6)]
        simp only [Hugr.linkedInputs, List.map_map, List.mem_map, List.mem_filter,
          Bool.and_eq_true, decide_eq_true_eq]
        exact ⟨l, ⟨h1, h2, by omega⟩, h3⟩
      | succ i => exact Or.inr ⟨l, h1, h2, h3, i, t', by omega, by simpa using h5, h6⟩

theorem filter_split_length {α : Type} (l : List α) (p q r : α → Bool)
    (h1 : ∀ x, p x = true → r x = true) (h2 : ∀ x, q x = true → r x = true)
    (h3 : ∀ x, p x = true → q x = true → False) :
    (l.filter p).length + (l.filter q).length ≤ (l.filter r).length := by
  induction l with
  | nil => simp
  | cons a l ih =>
    have ha1 := h1 a
    have ha2 := h2 a
    have ha3 := h3 a
    simp only [List.filter_cons]
    cases hp : p a <;> cases hq : q a <;> cases hr : r a <;>
      simp_all <;> omega

theorem linearConsumers_length (h : Hugr Ops.Op Meta) (n : Nat) (ts : List Types.Ty) (port : Nat) :
    (linearConsumers h n port ts).length ≤
      (h.links.filter fun l => decide (l.src = n) && decide (port ≤ l.srcPort)).length := by
  induction ts generalizing port with
  | nil => simp [linearConsumers]
  | cons t ts ih =>
    unfold linearConsumers
    rw [List.length_append]
    have h1 : (if (!t.copyable) = true then (h.linkedInputs n port).map Prod.fst else []).length ≤
        (h.links.filter fun l => decide (l.src = n) && decide (l.srcPort = port)).length := by
      split
      · simp [Hugr.linkedInputs]
      · simp
    have h2 := ih (port + 1)
    have h3 := filter_split_length h.links
      (fun l => decide (l.src = n) && decide (l.srcPort = port))
      (fun l => decide (l.src = n) && decide (port + 1 ≤ l.srcPort))
      (fun l => decide (l.src = n) && decide (port ≤ l.srcPort))
      (by intro x; simp only [Bool.and_eq_true, decide_eq_true_eq]; omega)
      (by intro x; simp only [Bool.and_eq_true, decide_eq_true_eq]; omega)
      (by intro x; simp only [Bool.and_eq_true, decide_eq_true_eq]; omega)
    omega

/-- The number of nodes a node may push. -/
def pushes (h : Hugr Ops.Op Meta) (n : Nat) : Nat :=
  (h.children n).length + (inputNeighbours h n).length +
    (h.links.filter fun l => l.src = n).length

/-- What is left to push. -/
def left (h : Hugr Ops.Op Meta) (needed : List Nat) : Nat :=
  (((List.range h.cap).filter fun n => n ∉ needed).map (pushes h)).sum

theorem sum_filter_cons (l : List Nat) (hl : l.Nodup) (w : Nat → Nat) (S : List Nat) (n : Nat)
    (hn : n ∈ l) (hS : n ∉ S) :
    ((l.filter fun x => x ∉ n :: S).map w).sum + w n = ((l.filter fun x => x ∉ S).map w).sum := by
  induction l with
  | nil => cases hn
  | cons a l ih =>
    rw [List.nodup_cons] at hl
    rcases List.mem_cons.1 hn with rfl | hn'
    · have hc : (l.filter fun x => x ∉ n :: S) = l.filter fun x => x ∉ S := by
        apply List.filter_congr
        intro x hx
        have : x ≠ n := fun he => hl.1 (he ▸ hx)
        simp [this]
      rw [List.filter_cons_of_neg (by simp), List.filter_cons_of_pos (by simpa using hS), hc,
        List.map_cons, List.sum_cons]
      omega
    · have hne : a ≠ n := fun he => hl.1 (he ▸ hn')
      have := ih hl.2 hn'
      by_cases haS : a ∈ S
      · rw [List.filter_cons_of_neg (by simp [haS]), List.filter_cons_of_neg (by simp [haS])]
        exact this
      · rw [List.filter_cons_of_pos (by simp [haS, hne]), List.filter_cons_of_pos (by simp [haS])]
        simp only [List.map_cons, List.sum_cons]
        omega

/-- The state of the search. -/
structure FindInv (h : Hugr Ops.Op Meta) (callback : Nat → PreserveNode) (entries : List Nat)
    (cache : Nat → Option Bool) (needed queue : List Nat) : Prop where
  cache : CacheOk h.children callback cache
  sound : ∀ n ∈ needed ++ queue, Needed h callback entries n
  live : ∀ n ∈ needed, h.live n = true
  start : h.entrypoint ∈ needed ++ queue ∧ ∀ e ∈ entries, e ∈ needed ++ queue
  child : ∀ n ∈ needed, ∀ c ∈ h.children n, Forced h.children callback c ∨ Structural (h.ops c) →
    c ∈ needed ++ queue
  source : ∀ l ∈ h.links, l.dst ∈ needed → l.src ∈ needed ++ queue
  consumer : ∀ l ∈ h.links, l.src ∈ needed → LinearOut (h.ops l.src) l.srcPort →
    l.dst ∈ needed ++ queue

theorem FindInv.complete {h : Hugr Ops.Op Meta} {callback : Nat → PreserveNode} {entries : List Nat}
    {cache : Nat → Option Bool} {needed : List Nat}
    (hi : FindInv h callback entries cache needed []) (n : Nat) :
    n ∈ needed ↔ Needed h callback entries n := by
  obtain ⟨_, h1, _, h2, h3, h4, h5⟩ := hi
  simp only [List.append_nil] at h1 h2 h3 h4 h5
  refine ⟨h1 n, fun hn => ?_⟩
  induction hn with
  | entrypoint => exact h2.1
  | entry he => exact h2.2 _ he
  | forced _ hc hf ih => exact h3 _ ih _ hc (Or.inl hf)
  | structural _ hc hf ih => exact h3 _ ih _ hc (Or.inr hf)
  | source hl _ ih => exact h4 _ hl ih
  | consumer hl _ hlin ih => exact h5 _ hl ih hlin

/-- One round that expands a node. -/
theorem findInv_step {h : Hugr Ops.Op Meta} (ht : IsTree h) {callback : Nat → PreserveNode}
    {entries : List Nat} {cache cache' : Nat → Option Bool} {needed queue : List Nat} {n : Nat}
    (hi : FindInv h callback entries cache needed (n :: queue)) (hn : h.live n = true)
    {pushed consumers : List Nat}
    (hp : neededChildren h callback cache (h.children n) = (pushed, cache'))
    (hcons : ∀ m, m ∈ consumers ↔ ∃ l ∈ h.links, l.src = n ∧ l.dst = m ∧
      LinearOut (h.ops n) l.srcPort) :
    FindInv h callback entries cache' (n :: needed)
      (queue ++ pushed ++ inputNeighbours h n ++ consumers) := by
  have hch := neededChildren_spec ht callback (h.children n) cache
    (fun c hc => (ht.parent_live c n ((ht.child_iff n c).1 hc)).1) hi.cache
  rw [hp] at hch
  simp only at hch
  have hin : ∀ m, m ∈ inputNeighbours h n ↔ ∃ l ∈ h.links, l.dst = n ∧ l.src = m := by
    intro m
    simp only [inputNeighbours, List.mem_map, List.mem_filter, decide_eq_true_eq]
    constructor
    · rintro ⟨l, ⟨h1, h2⟩, h3⟩; exact ⟨l, h1, h2, h3⟩
    · rintro ⟨l, h1, h2, h3⟩; exact ⟨l, ⟨h1, h2⟩, h3⟩
  have hnn : Needed h callback entries n := hi.sound n (by simp)
  have hmono : ∀ m, m ∈ needed ++ n :: queue →
      m ∈ (n :: needed) ++ (queue ++ pushed ++ inputNeighbours h n ++ consumers) := by
    intro m hm
    simp only [List.mem_append, List.mem_cons] at hm ⊢
    tauto
  refine ⟨hch.2.2, ?_, ?_, ?_, ?_, ?_, ?_⟩
  · intro m hm
    simp only [List.mem_append, List.mem_cons] at hm
    rcases hm with (rfl | hm) | ((hm | hm) | hm) | hm
    · exact hnn
    · exact hi.sound m (by simp [hm])
    · exact hi.sound m (by simp [hm])
    · rcases (hch.1 m).1 hm with ⟨h1, h2 | h2⟩
      · exact .forced hnn h1 h2
      · exact .structural hnn h1 h2
    · obtain ⟨l, h1, h2, h3⟩ := (hin m).1 hm
      rw [← h3]; exact .source h1 (h2 ▸ hnn)
    · obtain ⟨l, h1, h2, h3, h4⟩ := (hcons m).1 hm
      rw [← h3]; exact .consumer h1 (h2 ▸ hnn) (h2 ▸ h4)
  · intro m hm
    rcases List.mem_cons.1 hm with rfl | hm
    · exact hn
    · exact hi.live m hm
  · exact ⟨hmono _ hi.start.1, fun e he => hmono _ (hi.start.2 e he)⟩
  · intro m hm c hc hfs
    rcases List.mem_cons.1 hm with rfl | hm
    · have := (hch.1 c).2 ⟨hc, hfs⟩
      simp only [List.mem_append]; tauto
    · exact hmono _ (hi.child m hm c hc hfs)
  · intro l hl hd
    rcases List.mem_cons.1 hd with hd | hd
    · have := (hin l.src).2 ⟨l, hl, hd, rfl⟩
      simp only [List.mem_append]; tauto
    · exact hmono _ (hi.source l hl hd)
  · intro l hl hs hlin
    rcases List.mem_cons.1 hs with hs | hs
    · have := (hcons l.dst).2 ⟨l, hl, hs, rfl, hs ▸ hlin⟩
      simp only [List.mem_append]; tauto
    · exact hmono _ (hi.consumer l hl hs hlin)

theorem findLoop_spec {h : Hugr Ops.Op Meta} (ht : IsTree h) (callback : Nat → PreserveNode)
    (entries : List Nat) (fuel : Nat) (cache : Nat → Option Bool) (needed queue : List Nat)
    (hi : FindInv h callback entries cache needed queue)
    (hf : queue.length + left h needed < fuel) :
    match findLoop h callback fuel cache needed queue with
    | .ok s => (∀ n, n ∈ s ↔ Needed h callback entries n) ∧ ∀ n ∈ s, h.live n = true
    | .notFound n => Needed h callback entries n ∧ h.live n = false
    | .panic => ∃ n, h.live n = true ∧ (h.ops n).dataflowSignature = .panic := by
  induction fuel generalizing cache needed queue with
  | zero => omega
  | succ fuel ih =>
    cases queue with
    | nil =>
      simp only [findLoop]
      exact ⟨hi.complete, hi.live⟩
    | cons n queue =>
      unfold findLoop
      simp only [List.length_cons] at hf
      by_cases hn : h.live n = true
      · rw [if_pos hn]
        by_cases hm : n ∈ needed
        · rw [if_pos hm]
          refine ih cache needed queue ?_ (by omega)
          have hsub : ∀ m, m ∈ needed ++ n :: queue ↔ m ∈ needed ++ queue := by
            intro m
            simp only [List.mem_append, List.mem_cons]
            constructor
            · rintro (h1 | rfl | h1)
              · exact Or.inl h1
              · exact Or.inl hm
              · exact Or.inr h1
            · rintro (h1 | h1)
              · exact Or.inl h1
              · exact Or.inr (Or.inr h1)
          obtain ⟨g1, g2, g3, g4, g5, g6, g7⟩ := hi
          simp only [hsub] at g2 g4 g5 g6 g7
          exact ⟨g1, g2, g3, g4, g5, g6, g7⟩
        · rw [if_neg hm]
          have hlen := (neededChildren_spec ht callback (h.children n) cache
            (fun c hc => (ht.parent_live c n ((ht.child_iff n c).1 hc)).1) hi.cache).2.1
          have hleft : left h (n :: needed) + pushes h n = left h needed :=
            sum_filter_cons (List.range h.cap) List.nodup_range (pushes h) needed n
              (List.mem_range.2 (ht.in_range n hn)) hm
          cases hp : neededChildren h callback cache (h.children n) with
          | mk pushed cache' =>
            rw [hp] at hlen
            simp only at hlen ⊢
            cases hsig : (h.ops n).dataflowSignature with
            | panic => exact ⟨n, hn, hsig⟩
            | ok o =>
              cases o with
              | none =>
                have hstep := findInv_step (consumers := []) ht hi hn hp (by
                  intro m
                  simp only [List.not_mem_nil, false_iff]
                  rintro ⟨l, _, _, _, sig, t, h4, _⟩
                  rw [hsig] at h4; cases h4)
                simp only [List.append_nil] at hstep
                refine ih cache' _ _ hstep ?_
                simp only [List.length_append]
                unfold pushes at hleft
                omega
              | some sig =>
                have hlin := linearConsumers_length h n sig.output 0
                simp only [Nat.zero_le, decide_true, Bool.and_true] at hlin
                have hstep := findInv_step (consumers := linearConsumers h n 0 sig.output)
                  ht hi hn hp (by
                  intro m
                  rw [linearConsumers_mem]
                  constructor
                  · rintro ⟨l, h1, h2, h3, i, t, h4, h5, h6⟩
                    refine ⟨l, h1, h2, h3, sig, t, hsig, ?_, h6⟩
                    rw [h4, Nat.zero_add]; exact h5
                  · rintro ⟨l, h1, h2, h3, sig', t, h4, h5, h6⟩
                    rw [hsig] at h4; cases h4
                    exact ⟨l, h1, h2, h3, l.srcPort, t, by omega, h5, h6⟩)
                refine ih cache' _ _ hstep ?_
                simp only [List.length_append]
                unfold pushes at hleft
                omega
      · rw [if_neg hn]
        exact ⟨hi.sound n (by simp), by simpa using hn⟩

/-- The search finds the needed nodes. -/
theorem findNeeded_spec {h : Hugr Ops.Op Meta} (ht : IsTree h) (callback : Nat → PreserveNode)
    (entries : List Nat) :
    match findNeeded h callback entries with
    | .ok s => (∀ n, n ∈ s ↔ Needed h callback entries n) ∧ ∀ n ∈ s, h.live n = true
    | .notFound n => Needed h callback entries n ∧ h.live n = false
    | .panic => ∃ n, h.live n = true ∧ (h.ops n).dataflowSignature = .panic := by
  refine findLoop_spec ht callback entries _ _ _ _ ?_ ?_
  · have hc0 : CacheOk h.children callback fun _ => none := by
      intro n b hb; cases hb
    refine ⟨hc0, ?_, by simp, ?_, by simp, by simp, by simp⟩
    · intro n hn
      simp only [List.nil_append, List.mem_cons] at hn
      rcases hn with rfl | hn
      · exact .entrypoint
      · exact .entry hn
    · simp only [List.nil_append, List.mem_cons]
      exact ⟨Or.inl trivial, fun e he => Or.inr he⟩
  · have : left h [] = ((List.range h.cap).map (pushes h)).sum := by
      unfold left
      congr 2
      apply List.filter_eq_self.2
      simp
    rw [this]
    unfold findFuel
    simp only [List.length_cons]
    change _ < entries.length + 2 + ((List.range h.cap).map (pushes h)).sum
    omega

end Verif.Passes
