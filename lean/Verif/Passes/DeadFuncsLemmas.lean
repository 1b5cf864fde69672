import Verif.Passes.DeadFuncsSpec

/-!
# Lemmas on the module graph
-/
namespace Verif.Passes

open Verif.Graph

variable {Meta : Type}

theorem collect_spec {f : Nat → Option (List Nat)} {cs : List Nat} :
    (∀ out, collect f cs = some out → ∀ t, t ∈ out ↔ ∃ c ∈ cs, ∃ a, f c = some a ∧ t ∈ a) ∧
    ((collect f cs).isSome = true ↔ ∀ c ∈ cs, (f c).isSome = true) := by
  induction cs with
  | nil => simp [collect]
  | cons c cs ih =>
    simp only [collect]
    cases hc : f c with
    | none => simp [hc, both]
    | some a =>
      cases hcs : collect f cs with
      | none =>
        rw [hcs] at ih
        simp only [Option.isSome_none, Bool.false_eq_true, false_iff] at ih
        refine ⟨by simp [both], ?_⟩
        simp only [both, Option.isSome_none, Bool.false_eq_true, false_iff]
        intro hall
        exact ih.2 fun c' hc' => hall c' (List.mem_cons_of_mem _ hc')
      | some b =>
        rw [hcs] at ih
        have h1 := ih.1 b rfl
        have h2 := ih.2
        refine ⟨?_, ?_⟩
        · intro out hout t
          simp only [both, Option.some.injEq] at hout
          subst hout
          rw [List.mem_append, h1]
          simp [hc]
        · simp only [both, Option.isSome_some, true_iff] at h2 ⊢
          intro c' hc'
          rcases List.mem_cons.1 hc' with rfl | hc'
          · rw [hc]; rfl
          · exact h2 c' hc'

/-- What `traverse` collects. -/
theorem traverse_aux {h : Hugr Ops.Op Meta} (ht : IsTree h) (fuel : Nat) (n : Nat) (L : List Nat)
    (hL : L.Nodup) (hLl : ∀ x ∈ L, h.live x = true ∧ Above h.hier.parent n x) (hn : n ∈ L)
    (hf : h.cap + 1 ≤ fuel + L.length) :
    (∀ out, traverse h fuel n = some out → ∀ t, t ∈ out ↔
      ∃ u a, u ≠ n ∧ Above h.hier.parent u n ∧ childEdge h u = some a ∧ t ∈ a) ∧
    ((traverse h fuel n).isSome = true ↔
      ∀ u, u ≠ n → Above h.hier.parent u n → (childEdge h u).isSome = true) := by
  have hac := ht.acyclic
  induction fuel generalizing n L with
  | zero =>
    have := nodup_live_length ht hL fun x hx => (hLl x hx).1
    omega
  | succ fuel ih =>
    have hch : ∀ c ∈ h.children n, _ := fun c hcm => ih c (c :: L)
      (by
        rw [List.nodup_cons]
        exact ⟨fun hm => hac c n ((ht.child_iff n c).1 hcm) (hLl c hm).2, hL⟩)
      (by
        intro x hx
        have hp := (ht.child_iff n c).1 hcm
        rcases List.mem_cons.1 hx with rfl | hx
        · exact ⟨(ht.parent_live x n hp).1, .refl _⟩
        · exact ⟨(hLl x hx).1, .step hp (hLl x hx).2⟩)
      (by simp) (by simp only [List.length_cons]; omega)
    -- below `n`, strictly: a child or below a child
    have hbelow : ∀ u, (u ≠ n ∧ Above h.hier.parent u n) ↔
        ∃ c ∈ h.children n, u = c ∨ (u ≠ c ∧ Above h.hier.parent u c) := by
      intro u
      constructor
      · rintro ⟨h1, h2⟩
        obtain ⟨c, h3, h4⟩ := h2.last h1
        refine ⟨c, (ht.child_iff n c).2 (by first | exact h3 | exact h4), ?_⟩
        by_cases huc : u = c
        · exact Or.inl huc
        · exact Or.inr ⟨huc, by first | exact h4 | exact h3⟩
      · rintro ⟨c, hc, h1⟩
        have hp := (ht.child_iff n c).1 hc
        rcases h1 with rfl | ⟨_, h2⟩
        · refine ⟨?_, .of_parent hp⟩
          rintro rfl; exact hac _ _ hp (.refl _)
        · refine ⟨?_, h2.trans (.of_parent hp)⟩
          rintro rfl; exact hac _ _ hp h2
    have hcs := collect_spec (f := fun ch => both (traverse h fuel ch) (childEdge h ch)) (cs := h.children n)
    have htrv : traverse h (fuel + 1) n =
      collect (fun ch => both (traverse h fuel ch) (childEdge h ch)) (h.children n) := rfl
    rw [htrv]
    refine ⟨?_, ?_⟩
    · intro out hout t
      rw [hcs.1 out hout t]
      constructor
      · rintro ⟨c, hc, a, ha, hta⟩
        have h1 := (hch c hc).1
        cases htr : traverse h fuel c with
        | none => rw [htr] at ha; simp [both] at ha
        | some x =>
          cases hce : childEdge h c with
          | none => rw [htr, hce] at ha; simp [both] at ha
          | some y =>
            rw [htr, hce] at ha
            simp only [both, Option.some.injEq] at ha
            subst ha
            rcases List.mem_append.1 hta with h2 | h2
            · obtain ⟨u, a, h3, h4, h5, h6⟩ := (h1 x htr t).1 h2
              have := (hbelow u).2 ⟨c, hc, Or.inr ⟨h3, h4⟩⟩
              exact ⟨u, a, this.1, this.2, h5, h6⟩
            · have := (hbelow c).2 ⟨c, hc, Or.inl rfl⟩
              exact ⟨c, y, this.1, this.2, hce, h2⟩
      · rintro ⟨u, a, h1, h2, h3, h4⟩
        obtain ⟨c, hc, h5⟩ := (hbelow u).1 ⟨h1, h2⟩
        have hsome := hcs.2.1 (by rw [hout]; rfl) c hc
        have h6 := (hch c hc).1
        cases htr : traverse h fuel c with
        | none => rw [htr] at hsome; simp [both] at hsome
        | some x =>
          cases hce : childEdge h c with
          | none => rw [htr, hce] at hsome; simp [both] at hsome
          | some y =>
            refine ⟨c, hc, x ++ y, by simp only [htr, hce, both], ?_⟩
            rcases h5 with rfl | ⟨h7, h8⟩
            · rw [h3] at hce; cases hce
              exact List.mem_append_right _ h4
            · exact List.mem_append_left _ ((h6 x htr t).2 ⟨u, a, h7, h8, h3, h4⟩)
    · rw [hcs.2]
      constructor
      · intro hall u h1 h2
        obtain ⟨c, hc, h5⟩ := (hbelow u).1 ⟨h1, h2⟩
        have hsome := hall c hc
        have h6 := (hch c hc).2
        cases htr : traverse h fuel c with
        | none => rw [htr] at hsome; simp [both] at hsome
        | some x =>
          cases hce : childEdge h c with
          | none => rw [htr, hce] at hsome; simp [both] at hsome
          | some y =>
            rcases h5 with rfl | ⟨h7, h8⟩
            · rw [hce]; rfl
            · exact h6.1 (by rw [htr]; rfl) u h7 h8
      · intro hall c hc
        have h6 := (hch c hc).2.2 (fun u h1 h2 => by
          have := (hbelow u).2 ⟨c, hc, Or.inr ⟨h1, h2⟩⟩
          exact hall u this.1 this.2)
        have h7 := hall c ((hbelow c).2 ⟨c, hc, Or.inl rfl⟩).1 ((hbelow c).2 ⟨c, hc, Or.inl rfl⟩).2
        obtain ⟨x, hx⟩ := Option.isSome_iff_exists.1 h6
        obtain ⟨y, hy⟩ := Option.isSome_iff_exists.1 h7
        simp only [hx, hy, both, Option.isSome_some]

theorem usesOf_spec {h : Hugr Ops.Op Meta} (ht : IsTree h) {n : Nat} (hn : h.live n = true) :
    (∀ out, usesOf h n = some out → ∀ t, t ∈ out ↔
      ∃ u a, u ≠ n ∧ Above h.hier.parent u n ∧ childEdge h u = some a ∧ t ∈ a) ∧
    ((usesOf h n).isSome = true ↔
      ∀ u, u ≠ n → Above h.hier.parent u n → (childEdge h u).isSome = true) :=
  traverse_aux ht (h.cap + 1) n [n] (by simp)
    (by intro x hx; simp only [List.mem_singleton] at hx; subst hx; exact ⟨hn, .refl _⟩) (by simp)
    (by simp)

/-- The static source is the source of the static link. -/
theorem staticSource_spec {h : Hugr Ops.Op Meta} (hso : StaticOk h) (u t : Nat) :
    staticSource h u = some t ↔ ∃ l, StaticLink h l ∧ l.dst = u ∧ l.src = t := by
  have hport : ∀ port, (h.ops u).staticPort .incoming = .ok (some port) ↔
      (h.ops u).ownStaticPort = some port := by
    intro port
    cases h.ops u <;>
      simp [Ops.Op.staticPort, Ops.Op.staticPortKind, Ops.Op.staticInput, Ops.Op.ownStaticPort,
        Ops.Op.valuePortCount, Ops.Op.dataflowSignature, Ops.Run.map, Ops.sigRow]
  constructor
  · intro hs
    unfold staticSource at hs
    split at hs
    · rename_i port hp
      rw [Option.map_eq_some_iff] at hs
      obtain ⟨⟨t', q⟩, h1, h2⟩ := hs
      have hm : (t', q) ∈ h.linkedOutputs u port := List.mem_of_head? h1
      simp only [Hugr.linkedOutputs, List.mem_map, List.mem_filter, Bool.and_eq_true,
        decide_eq_true_eq, Prod.mk.injEq] at hm
      obtain ⟨l, ⟨h3, h4, h5⟩, h6, _⟩ := hm
      refine ⟨l, ⟨h3, ?_⟩, h4, by rw [h6]; exact h2⟩
      rw [h4, h5]; exact (hport port).1 hp
    · cases hs
  · rintro ⟨l, hl, h1, h2⟩
    have hp := (hport l.dstPort).2 (h1 ▸ hl.2)
    unfold staticSource
    rw [hp]
    simp only
    have hmem : (l.src, l.srcPort) ∈ h.linkedOutputs u l.dstPort := by
      simp only [Hugr.linkedOutputs, List.mem_map, List.mem_filter, Bool.and_eq_true,
        decide_eq_true_eq]
      exact ⟨l, ⟨hl.1, h1, rfl⟩, rfl⟩
    cases hlo : h.linkedOutputs u l.dstPort with
    | nil => rw [hlo] at hmem; cases hmem
    | cons x xs =>
      simp only [List.head?_cons, Option.map_some, Option.some.injEq]
      have hx : x ∈ h.linkedOutputs u l.dstPort := by rw [hlo]; simp
      simp only [Hugr.linkedOutputs, List.mem_map, List.mem_filter, Bool.and_eq_true,
        decide_eq_true_eq] at hx
      obtain ⟨l', ⟨h3, h4, h5⟩, h6⟩ := hx
      have hl' : StaticLink h l' := ⟨h3, by rw [h4, h5, ← h1]; exact hl.2⟩
      rw [← h6]
      simp only
      rw [← h2]
      exact hso.single l' l hl' hl (by rw [h4, h1])

theorem getParent_root {h : Hugr Ops.Op Meta} (ht : IsTree h) (t p : Nat) :
    h.getParent t = some p ↔ h.hier.parent t = some p := by
  unfold Hugr.getParent
  constructor
  · intro h1
    split at h1
    · exact h1
    · cases h1
  · intro h1
    have h2 := (ht.parent_live t _ h1).1
    have h3 : t ≠ h.moduleRoot := by rintro rfl; rw [ht.root_top] at h1; cases h1
    rw [if_pos (by simp [h2, h3])]; exact h1

theorem isStaticUse_iff (op : Ops.Op) : isStaticUse op = true ↔ op.ownStaticPort.isSome = true := by
  cases op <;> simp [isStaticUse, Ops.Op.ownStaticPort]

theorem mem_moduleNodes {h : Hugr Ops.Op Meta} (ht : IsTree h) (t : Nat)
    (hp : h.hier.parent t = some h.moduleRoot) (hs : isStaticOp (h.ops t) = true) :
    t ∈ moduleNodes h := by
  have hm : t ∈ (h.children h.moduleRoot).filter fun n => isStaticOp (h.ops n) :=
    List.mem_filter.2 ⟨(ht.child_iff _ _).2 hp, hs⟩
  unfold moduleNodes
  simp only []
  split
  · exact List.mem_cons_of_mem _ hm
  · exact hm

theorem moduleNodes_mem {h : Hugr Ops.Op Meta} (ht : IsTree h) {t : Nat} (hm : t ∈ moduleNodes h) :
    t = h.entrypoint ∨ h.hier.parent t = some h.moduleRoot := by
  have hs : ∀ t, t ∈ (h.children h.moduleRoot).filter (fun n => isStaticOp (h.ops n)) →
      h.hier.parent t = some h.moduleRoot := fun t ht' =>
    (ht.child_iff _ _).1 (List.mem_filter.1 ht').1
  unfold moduleNodes at hm
  simp only [] at hm
  split at hm
  · rcases List.mem_cons.1 hm with rfl | hm
    · exact Or.inl rfl
    · exact Or.inr (hs t hm)
  · exact Or.inr (hs t hm)

theorem moduleNodes_nodup {h : Hugr Ops.Op Meta} (ht : IsTree h) : (moduleNodes h).Nodup := by
  unfold moduleNodes
  simp only []
  split
  · rename_i hc
    simp only [Bool.and_eq_true, decide_eq_true_eq] at hc
    rw [List.nodup_cons]
    exact ⟨hc.2, (ht.child_once _).filter _⟩
  · exact (ht.child_once _).filter _

theorem entry_mem_moduleNodes {h : Hugr Ops.Op Meta} (hm : isModule (h.ops h.entrypoint) = false) :
    h.entrypoint ∈ moduleNodes h := by
  unfold moduleNodes
  simp only []
  split
  · simp
  · rename_i hc
    simp only [hm, Bool.not_false, Bool.true_and, decide_eq_true_eq, not_not] at hc
    exact hc

theorem moduleNodes_live {h : Hugr Ops.Op Meta} (ht : IsTree h) {t : Nat} (hm : t ∈ moduleNodes h) :
    h.live t = true := by
  rcases moduleNodes_mem ht hm with rfl | h1
  · exact ht.entry_live
  · exact (ht.parent_live _ _ h1).1

/-- The edges of one node. -/
theorem childEdge_spec {h : Hugr Ops.Op Meta} (ht : IsTree h) (hso : StaticOk h) (u : Nat) :
    ∃ a, childEdge h u = some a ∧ ∀ t, t ∈ a ↔
      ∃ l, StaticLink h l ∧ l.dst = u ∧ l.src = t ∧ h.hier.parent t = some h.moduleRoot := by
  unfold childEdge
  split
  · rename_i hu
    cases hs : staticSource h u with
    | none =>
      refine ⟨[], rfl, ?_⟩
      intro t
      simp only [List.not_mem_nil, false_iff]
      rintro ⟨l, h1, h2, h3, _⟩
      have := (staticSource_spec hso u t).2 ⟨l, h1, h2, h3⟩
      rw [hs] at this; cases this
    | some target =>
      obtain ⟨l, h1, h2, h3⟩ := (staticSource_spec hso u target).1 hs
      have huniq : ∀ l' t, StaticLink h l' → l'.dst = u → l'.src = t → t = target := by
        intro l' t h4 h5 h6
        rw [← h6, ← h3]; exact hso.single l' l h4 h1 (by rw [h5, h2])
      simp only
      split
      · rename_i hp
        rw [getParent_root ht] at hp
        have hst : isStaticOp (h.ops target) = true := by
          rcases hso.atModule l h1 (by rw [h3]; exact hp) with ⟨n, s, h4⟩ | ⟨n, s, h4⟩ | ⟨n, h4⟩ <;>
            rw [h3] at h4 <;> rw [h4] <;> rfl
        rw [if_pos (mem_moduleNodes ht target hp hst)]
        refine ⟨[target], rfl, ?_⟩
        intro t
        rw [List.mem_singleton]
        constructor
        · rintro rfl; exact ⟨l, h1, h2, h3, hp⟩
        · rintro ⟨l', h4, h5, h6, _⟩; exact huniq l' t h4 h5 h6
      · rename_i hp
        rw [getParent_root ht] at hp
        obtain ⟨⟨t1, h4⟩, ⟨t2, h5⟩, h6⟩ := hso.elsewhere l h1 (by rw [h3]; exact hp)
        rw [h2] at h4
        rw [h3] at h5 h6
        have hnm : target ∉ moduleNodes h := by
          intro hm
          rcases moduleNodes_mem ht hm with h7 | h7
          · exact h6 h7
          · exact hp h7
        rw [if_pos (by simp [hnm, h4, h5, isLoadConstant, isConst])]
        refine ⟨[], rfl, ?_⟩
        intro t
        simp only [List.not_mem_nil, false_iff]
        rintro ⟨l', h7, h8, h9, h10⟩
        rw [huniq l' t h7 h8 h9] at h10
        exact hp h10
  · rename_i hu
    refine ⟨[], rfl, ?_⟩
    intro t
    simp only [List.not_mem_nil, false_iff]
    rintro ⟨l, h1, h2, _⟩
    apply hu
    rw [isStaticUse_iff, ← h2, h1.2]; rfl

/-- The module graph. -/
theorem moduleGraph_spec {h : Hugr Ops.Op Meta} (ht : IsTree h) (hso : StaticOk h) :
    ∃ succ, moduleGraph h = some (moduleNodes h, succ) ∧
      (∀ f ∈ moduleNodes h, ∀ t, t ∈ succ f ↔ Uses h f t) ∧
      ∀ f ∈ moduleNodes h, ∀ t ∈ succ f, t ∈ moduleNodes h := by
  have hsome : ∀ f ∈ moduleNodes h, (usesOf h f).isSome = true := by
    intro f hf
    rw [(usesOf_spec ht (moduleNodes_live ht hf)).2]
    intro u _ _
    obtain ⟨a, ha, _⟩ := childEdge_spec ht hso u
    rw [ha]; rfl
  have huse : ∀ f ∈ moduleNodes h, ∀ t, t ∈ (usesOf h f).getD [] ↔ Uses h f t := by
    intro f hf t
    obtain ⟨out, hout⟩ := Option.isSome_iff_exists.1 (hsome f hf)
    rw [hout, Option.getD_some, (usesOf_spec ht (moduleNodes_live ht hf)).1 out hout t]
    constructor
    · rintro ⟨u, a, h1, h2, h3, h4⟩
      obtain ⟨a', h5, h6⟩ := childEdge_spec ht hso u
      rw [h3] at h5; cases h5
      obtain ⟨l, h7, h8, h9, h10⟩ := (h6 t).1 h4
      exact ⟨l, h7, h9, h10, h8 ▸ h1, h8 ▸ h2⟩
    · rintro ⟨l, h7, h9, h10, h1, h2⟩
      obtain ⟨a', h5, h6⟩ := childEdge_spec ht hso l.dst
      exact ⟨l.dst, a', h1, h2, h5, (h6 t).2 ⟨l, h7, rfl, h9, h10⟩⟩
  refine ⟨fun f => (usesOf h f).getD [], ?_, huse, ?_⟩
  · unfold moduleGraph
    rw [if_pos (List.all_eq_true.2 hsome)]
  · intro f hf t hm
    obtain ⟨l, h1, h2, h3, _⟩ := (huse f hf t).1 hm
    refine mem_moduleNodes ht t h3 ?_
    rcases hso.atModule l h1 (by rw [h2]; exact h3) with ⟨n, s, h4⟩ | ⟨n, s, h4⟩ | ⟨n, h4⟩ <;>
      rw [h2] at h4 <;> rw [h4] <;> rfl

/-- The search finds the reachable nodes. -/
theorem reachableFuncs_spec {h : Hugr Ops.Op Meta} (ht : IsTree h) {succ : Nat → List Nat}
    (hsucc : ∀ f ∈ moduleNodes h, ∀ t, t ∈ succ f ↔ Uses h f t)
    (hin : ∀ f ∈ moduleNodes h, ∀ t ∈ succ f, t ∈ moduleNodes h) {entries : List Nat}
    (hentries : ∀ e ∈ entries, e ∈ moduleNodes h)
    (hentry : h.entrypoint ≠ h.moduleRoot → h.entrypoint ∈ moduleNodes h) :
    ∃ found, reachableFuncs h (moduleNodes h) succ
        (if h.entrypoint ≠ h.moduleRoot then entries ++ [h.entrypoint] else entries) = some found ∧
      ∀ t, t ∈ found ↔ Reachable h entries t ∧ isConst (h.ops t) = false := by
  generalize hE : (if h.entrypoint ≠ h.moduleRoot then entries ++ [h.entrypoint] else entries) = E
  have hEm : ∀ s, s ∈ E ↔ s ∈ entries ∨ (h.entrypoint ≠ h.moduleRoot ∧ s = h.entrypoint) := by
    intro s
    subst hE
    split <;> simp_all
  have hEn : ∀ e ∈ E, e ∈ moduleNodes h := by
    intro e he
    rcases (hEm e).1 he with h1 | ⟨h1, rfl⟩
    · exact hentries e h1
    · exact hentry h1
  unfold reachableFuncs
  rw [if_pos (by rw [List.all_eq_true]; intro e he; simpa using hEn e he)]
  refine ⟨_, rfl, ?_⟩
  intro t
  rw [List.mem_filter, dfs_mem succ (moduleNodes h) E.reverse (moduleNodes_nodup ht)
    (fun n hn => hEn n (List.mem_reverse.1 hn)) hin]
  simp only [Bool.not_eq_true']
  refine and_congr_left fun hnc => ?_
  clear hnc
  constructor
  · rintro ⟨s, hs, hr⟩
    rw [List.mem_reverse] at hs
    have : Reachable h entries t ∧ t ∈ moduleNodes h := by
      induction hr with
      | refl =>
        refine ⟨?_, hEn s hs⟩
        rcases (hEm s).1 hs with h1 | ⟨h1, rfl⟩
        · exact .given h1
        · exact .entrypoint h1
      | tail _ hb ih => exact ⟨.use ih.1 ((hsucc _ ih.2 _).1 hb), hin _ ih.2 _ hb⟩
    exact this.1
  · intro hr
    have : t ∈ moduleNodes h ∧ ∃ s ∈ E.reverse, Relation.ReflTransGen (fun a b => b ∈ succ a) s t := by
      induction hr with
      | given he =>
        have := (hEm _).2 (Or.inl he)
        exact ⟨hEn _ this, _, List.mem_reverse.2 this, .refl⟩
      | entrypoint hne =>
        have := (hEm _).2 (Or.inr ⟨hne, rfl⟩)
        exact ⟨hEn _ this, _, List.mem_reverse.2 this, .refl⟩
      | use _ hu ih =>
        obtain ⟨h1, s, hs, h2⟩ := ih
        have := (hsucc _ h1 _).2 hu
        exact ⟨hin _ h1 _ this, s, hs, h2.tail this⟩
    exact this.2

/-- The node at module level around the entrypoint. -/
theorem enclosing_spec {h : Hugr Ops.Op Meta} (ht : IsTree h) (fuel : Nat) (n : Nat) (L : List Nat)
    (hL : L.Nodup) (hLl : ∀ x ∈ L, h.live x = true ∧ Above h.hier.parent x n) (hn : n ∈ L)
    (hf : h.cap + 1 ≤ fuel + L.length) (x : Nat) :
    x ∈ enclosing h fuel n ↔ Above h.hier.parent n x ∧ h.hier.parent x = some h.moduleRoot := by
  have hac := ht.acyclic
  induction fuel generalizing n L with
  | zero =>
    have := nodup_live_length ht hL fun x hx => (hLl x hx).1
    omega
  | succ fuel ih =>
    unfold enclosing
    cases hp : h.getParent n with
    | none =>
      simp only [List.not_mem_nil, false_iff]
      rintro ⟨h1, h2⟩
      cases h1 with
      | refl => rw [← getParent_root ht] at h2; rw [hp] at h2; cases h2
      | step h3 _ => rw [← getParent_root ht] at h3; rw [hp] at h3; cases h3
    | some p =>
      have hp' := (getParent_root ht n p).1 hp
      have hpl := (ht.parent_live n p hp').2
      have hstep := ih p (p :: L)
        (by
          rw [List.nodup_cons]
          exact ⟨fun hm => hac n p hp' (hLl p hm).2, hL⟩)
        (by
          intro y hy
          rcases List.mem_cons.1 hy with rfl | hy
          · exact ⟨hpl, .refl _⟩
          · exact ⟨(hLl y hy).1, (hLl y hy).2.trans (.of_parent hp')⟩)
        (by simp) (by simp only [List.length_cons]; omega)
      simp only [List.mem_append, hstep]
      constructor
      · rintro (h1 | ⟨h1, h2⟩)
        · split at h1
          · rename_i hpr
            simp only [List.mem_singleton] at h1
            subst h1
            exact ⟨.refl _, hpr ▸ hp'⟩
          · cases h1
        · exact ⟨.step hp' h1, h2⟩
      · rintro ⟨h1, h2⟩
        cases h1 with
        | refl =>
          rw [hp'] at h2
          left; rw [if_pos (Option.some.inj h2)]; simp
        | step h3 h4 =>
          rw [hp'] at h3; cases h3
          exact Or.inr ⟨h4, h2⟩

end Verif.Passes
