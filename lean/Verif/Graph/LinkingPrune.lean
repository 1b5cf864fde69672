import Verif.Graph.LinkingProps

/-!
# Linking: inserting from the pruned graph

`insert_link_hugr_by_node` moves the entrypoint below the module root and removes the children of the
nodes for which existing ones are used; what was below these children is left without a parent, so
that the graph is no longer a tree. Here it is shown that what is to be copied looks as before.
-/
namespace Verif.Graph

variable {Op Meta : Type}

/-- The parents of what is inserted are nodes of the host. -/
theorem linkRoots_live {host other : Hugr Op Meta} {parent : Option Nat}
    {children : List (Nat × Directive)} (hth : IsTree host) (htg : Targets host other parent children)
    {e : Nat × Nat} (he : e ∈ linkRoots host other parent children) : host.live e.2 = true := by
  unfold linkRoots at he
  rcases List.mem_append.1 he with h | h
  · cases parent with
    | none => simp at h
    | some p =>
      have : e = (other.entrypoint, p) := by simpa using h
      rw [this]
      exact (htg.parent_ok p rfl).1
  · obtain ⟨c, _, rfl⟩ := List.mem_map.1 h
    exact hth.root_live

theorem remove_children {h : Hier} (hok : h.Ok) (n q : Nat) :
    (h.remove n).children q = if q = n then [] else (h.children q).erase n := by
  unfold Hier.remove
  simp only [upd]
  split
  · rfl
  · exact detach_children hok n q

theorem remove_parent {h : Hier} (hok : h.Ok) (n i : Nat) :
    (h.remove n).parent i = if i = n ∨ h.parent i = some n then none else h.parent i := by
  unfold Hier.remove
  simp only [detach_children hok, detach_parent]
  simp only [(hok.child_once n).mem_erase_iff, hok.child_iff]
  by_cases hi : i = n
  · subst hi; simp [upd_same]
  · simp [hi, upd_ne _ _ hi]

theorem remove_ok {h : Hier} (hok : h.Ok) (n : Nat) : (h.remove n).Ok := by
  constructor
  · intro p m
    rw [remove_children hok, remove_parent hok]
    by_cases hp : p = n
    · subst hp
      simp only [if_true, List.not_mem_nil, false_iff]
      split
      · simp
      · rename_i hc; intro h1; exact hc (.inr h1)
    · rw [if_neg hp, (hok.child_once p).mem_erase_iff, hok.child_iff]
      by_cases hm : m = n
      · subst hm; simp
      · constructor
        · rintro ⟨_, h1⟩
          rw [if_neg]
          · exact h1
          · rintro (h2 | h2)
            · exact hm h2
            · rw [h1] at h2; exact hp (by simpa using h2)
        · intro h1
          split at h1
          · cases h1
          · exact ⟨hm, h1⟩
  · intro p
    rw [remove_children hok]
    split
    · exact List.nodup_nil
    · exact (hok.child_once p).erase n

/-- `o` looks like `other` where it is to be copied. -/
structure Pruned (other : Hugr Op Meta) (parent : Option Nat) (children : List (Nat × Directive))
    (o : Hugr Op Meta) : Prop where
  ok : o.hier.Ok
  cap : o.cap = other.cap
  root : o.moduleRoot = other.moduleRoot
  ins : o.ins = other.ins
  outs : o.outs = other.outs
  metadata : o.metadata = other.metadata
  live : ∀ x, x ∈ linkNodes other parent children → o.live x = true
  ops : ∀ x, x ∈ linkNodes other parent children → o.ops x = other.ops x
  links : (o.links.filter fun l => l.src ∈ linkNodes other parent children ∧
      l.dst ∈ linkNodes other parent children) =
    other.links.filter fun l => l.src ∈ linkNodes other parent children ∧
      l.dst ∈ linkNodes other parent children
  kept_children : ∀ x, Kept other parent children x → o.hier.children x = other.hier.children x
  kept_parent : ∀ x, Kept other parent children x → x ∉ keptRoots other parent children →
    o.hier.parent x = other.hier.parent x
  root_parent : ∀ x, x ∈ keptRoots other parent children ∨ x ∈ (uses children).map Prod.fst →
    o.hier.parent x = some other.moduleRoot
  root_top : o.hier.parent other.moduleRoot = none
  used_child : ∀ u ∈ (uses children).map Prod.fst, ∀ c ∈ o.hier.children u,
    o.live c = true ∧ c ≠ o.entrypoint

section
variable {other : Hugr Op Meta} {parent : Option Nat} {children : List (Nat × Directive)}

theorem kept_parent_kept {x q : Nat} (hx : Kept other parent children x)
    (hr : x ∉ keptRoots other parent children) (hq : other.hier.parent x = some q) :
    Kept other parent children q := by
  obtain ⟨r, hr', ha⟩ := hx
  cases ha with
  | refl => exact absurd hr' hr
  | step hp ha => rw [hq] at hp; cases hp; exact ⟨r, hr', ha⟩

theorem used_not_root (hto : IsTree other) (hcon : Consistent other parent children) {u : Nat}
    (hu : u ∈ (uses children).map Prod.fst) : u ≠ other.moduleRoot := by
  obtain ⟨⟨n, tn⟩, he, rfl⟩ := List.mem_map.1 hu
  have := hcon.of_root _ (mem_uses.1 he)
  rintro h
  simp only at h this
  rw [h, hto.root_top] at this
  cases this

theorem prune_step (I : OpInfo Op) (hto : IsTree other) (hnd : (children.map Prod.fst).Nodup)
    (hcon : Consistent other parent children) {o : Hugr Op Meta}
    (ho : Pruned other parent children o) {u c : Nat} (hu : u ∈ (uses children).map Prod.fst)
    (hc : c ∈ o.hier.children u) :
    ∃ o', o.removeNode I c = some o' ∧ Pruned other parent children o' ∧
      ∀ x, o'.hier.children x = if x = c then [] else (o.hier.children x).erase c := by
  have hmem := mem_linkNodes hto hnd hcon
  have hpc : o.hier.parent c = some u := (ho.ok.child_iff u c).1 hc
  have huk : ¬ Kept other parent children u := by
    obtain ⟨e, he, rfl⟩ := List.mem_map.1 hu
    exact uses_not_kept hto hnd hcon he
  have hur := used_not_root hto hcon hu
  have hcr : c ≠ other.moduleRoot := by
    rintro rfl; rw [ho.root_top] at hpc; cases hpc
  have hcroot : c ∉ keptRoots other parent children := by
    intro h
    rw [ho.root_parent c (.inl h)] at hpc
    exact hur (by simpa using hpc.symm)
  have hcuse : c ∉ (uses children).map Prod.fst := by
    intro h
    rw [ho.root_parent c (.inr h)] at hpc
    exact hur (by simpa using hpc.symm)
  have hck : ¬ Kept other parent children c := by
    intro h
    have h1 := ho.kept_parent c h hcroot
    rw [hpc] at h1
    exact huk (kept_parent_kept h hcroot h1.symm)
  have hcn : c ∉ linkNodes other parent children := by
    rw [hmem]
    rintro (h | h)
    · exact hck h
    · exact hcuse h
  obtain ⟨hcl, hce⟩ := ho.used_child u hu c hc
  have hv : o.validNonEntrypoint c = true := by
    unfold Hugr.validNonEntrypoint
    rw [hcl]; simpa using hce
  have hch := remove_children ho.ok c
  have hpa := remove_parent ho.ok c
  refine ⟨_, by unfold Hugr.removeNode; rw [if_pos hv], ?_, hch⟩
  have hne : ∀ x, x ∈ linkNodes other parent children → x ≠ c := by
    rintro x hx rfl; exact hcn hx
  refine ⟨remove_ok ho.ok c, ho.cap, ho.root, ho.ins, ho.outs, ho.metadata, ?_, ?_, ?_, ?_, ?_, ?_,
    ?_, ?_⟩
  · intro x hx
    simp only []
    rw [upd_ne _ _ (hne x hx)]
    exact ho.live x hx
  · intro x hx
    simp only []
    rw [upd_ne _ _ (hne x hx)]
    exact ho.ops x hx
  · rw [← ho.links]
    simp only []
    rw [List.filter_filter]
    apply List.filter_congr
    intro l _
    by_cases h1 : l.src ∈ linkNodes other parent children ∧ l.dst ∈ linkNodes other parent children
    · have h2 := hne _ h1.1
      have h3 := hne _ h1.2
      simp [h1, h2, h3]
    · simp [h1]
  · intro x hx
    have h1 : x ≠ c := by rintro rfl; exact hck hx
    simp only [hch, if_neg h1]
    rw [ho.kept_children x hx, List.erase_of_not_mem]
    intro h2
    exact hck (kept_child hto hx h2)
  · intro x hx hr
    have h1 : x ≠ c := by rintro rfl; exact hck hx
    have h2 := ho.kept_parent x hx hr
    simp only [hpa]
    rw [if_neg, h2]
    rintro (h3 | h3)
    · exact h1 h3
    · rw [h2] at h3
      exact hck (kept_parent_kept hx hr h3)
  · intro x hx
    have h2 := ho.root_parent x hx
    simp only [hpa]
    rw [if_neg, h2]
    rintro (h3 | h3)
    · subst h3
      rcases hx with h | h
      · exact hcroot h
      · exact hcuse h
    · rw [h2] at h3; exact hcr (by simpa using h3.symm)
  · simp only [hpa]
    split
    · rfl
    · exact ho.root_top
  · intro v hv x hx
    simp only [hch] at hx
    split at hx
    · simp at hx
    · rw [(ho.ok.child_once v).mem_erase_iff] at hx
      obtain ⟨h1, h2⟩ := ho.used_child v hv x hx.2
      simp only []
      rw [upd_ne _ _ hx.1]
      exact ⟨h1, h2⟩

theorem removeChildren_ok (I : OpInfo Op) (hto : IsTree other) (hnd : (children.map Prod.fst).Nodup)
    (hcon : Consistent other parent children) {u : Nat} (hu : u ∈ (uses children).map Prod.fst)
    (k : Nat) {o : Hugr Op Meta} (ho : Pruned other parent children o)
    (hk : (o.hier.children u).length ≤ k) :
    ∃ o', removeChildren I o u k = some o' ∧ Pruned other parent children o' ∧
      o'.hier.children u = [] ∧ ∀ x, o.hier.children x = [] → o'.hier.children x = [] := by
  induction k generalizing o with
  | zero => exact ⟨o, rfl, ho, List.length_eq_zero_iff.1 (Nat.le_zero.1 hk), fun _ h => h⟩
  | succ k ih =>
    rw [removeChildren]
    have he : o.children u = o.hier.children u := rfl
    rw [he]
    cases hc : o.hier.children u with
    | nil => exact ⟨o, rfl, ho, hc, fun _ h => h⟩
    | cons c cs =>
      simp only []
      obtain ⟨o1, h1, h2, h3⟩ := prune_step I hto hnd hcon ho hu (c := c) (by rw [hc]; simp)
      rw [h1]
      simp only []
      have h4 : (o1.hier.children u).length ≤ k := by
        rw [h3]
        split
        · exact Nat.zero_le _
        · rw [List.length_erase_of_mem (by rw [hc]; simp)]
          omega
      obtain ⟨o', h5, h6, h7, h8⟩ := ih h2 h4
      refine ⟨o', h5, h6, h7, ?_⟩
      intro x hx
      apply h8
      rw [h3, hx]
      split <;> rfl

theorem pruneUsed_ok (I : OpInfo Op) (hto : IsTree other) (hnd : (children.map Prod.fst).Nodup)
    (hcon : Consistent other parent children) (rest : List (Nat × Directive))
    (hsub : ∀ c ∈ rest, c ∈ children) {o : Hugr Op Meta} (ho : Pruned other parent children o) :
    ∃ o', pruneUsed I o rest = some o' ∧ Pruned other parent children o' ∧
      (∀ x, o.hier.children x = [] → o'.hier.children x = []) ∧
      ∀ x tn, (x, Directive.useExisting tn) ∈ rest → o'.hier.children x = [] := by
  induction rest generalizing o with
  | nil => exact ⟨o, rfl, ho, fun _ h => h, by simp⟩
  | cons c rest ih =>
    obtain ⟨n, d⟩ := c
    have hs : ∀ c ∈ rest, c ∈ children := fun c hc => hsub c (List.mem_cons_of_mem _ hc)
    cases d with
    | add rs =>
      rw [pruneUsed]
      obtain ⟨o', h1, h2, h3, h4⟩ := ih hs ho
      refine ⟨o', h1, h2, h3, ?_⟩
      intro x tn hx
      rcases List.mem_cons.1 hx with hx | hx
      · cases hx
      · exact h4 x tn hx
    | useExisting tn =>
      rw [pruneUsed]
      have hu : n ∈ (uses children).map Prod.fst :=
        List.mem_map.2 ⟨(n, tn), mem_uses.2 (hsub _ (by simp)), rfl⟩
      obtain ⟨o1, h1, h2, h3, h4⟩ := removeChildren_ok I hto hnd hcon hu (o.children n).length ho
        (Nat.le_refl _)
      rw [h1]
      simp only []
      obtain ⟨o', h5, h6, h7, h8⟩ := ih hs h2
      refine ⟨o', h5, h6, fun x hx => h7 x (h4 x hx), ?_⟩
      intro x tn' hx
      rcases List.mem_cons.1 hx with hx | hx
      · cases hx; exact h7 n h3
      · exact h8 x tn' hx

/-- After the entrypoint has been moved. -/
theorem pruned_start (hto : IsTree other) (hnd : (children.map Prod.fst).Nodup)
    (hcon : Consistent other parent children)
    (hentry : parent.isSome → other.entrypoint ≠ other.moduleRoot)
    (hpanic : parent = none → ∀ e ∈ uses children, other.hier.parent other.entrypoint ≠ some e.1) :
    ∃ o, (if parent.isSome then other.setParent other.entrypoint other.moduleRoot else some other) =
      some o ∧ Pruned other parent children o := by
  have hmem := mem_linkNodes hto hnd hcon
  have hl : ∀ x, x ∈ linkNodes other parent children → other.live x = true := by
    intro x hx
    rw [linkNodes_eq] at hx
    obtain ⟨b, hb, hx⟩ := List.mem_flatMap.1 hx
    have h1 := (linkBlocks_ok hto hnd hcon).2.1 b hb
    have := blockNodes_above hto h1 hx
    cases this with
    | refl => exact h1
    | step hp _ => exact (hto.parent_live _ _ hp).1
  have hcr : ∀ x, x ∈ (uses children).map Prod.fst → other.hier.parent x = some other.moduleRoot := by
    intro x hx
    obtain ⟨⟨n, tn⟩, he, rfl⟩ := List.mem_map.1 hx
    exact hcon.of_root _ (mem_uses.1 he)
  have hkr : ∀ x, x ∈ keptRoots other parent children →
      (parent.isSome = true ∧ x = other.entrypoint) ∨ other.hier.parent x = some other.moduleRoot := by
    intro x hx
    rcases mem_linkBlocks ((keptRoots_iff x).1 hx) with ⟨h1, h2⟩ | ⟨c, hc, h2⟩
    · exact .inl ⟨h1, by simpa using h2⟩
    · refine .inr ?_
      have : x = c.1 := by simpa using congrArg Prod.fst h2
      rw [this]; exact hcon.of_root c hc
  cases hp : parent with
  | none =>
    subst hp
    refine ⟨other, rfl, hto.ok, rfl, rfl, rfl, rfl, rfl, hl, fun _ _ => rfl, rfl, fun _ _ => rfl,
      fun _ _ _ => rfl, ?_, hto.root_top, ?_⟩
    · rintro x (hx | hx)
      · rcases hkr x hx with ⟨h, _⟩ | h
        · cases h
        · exact h
      · exact hcr x hx
    · intro u hu c hc
      have h1 := (hto.child_iff u c).1 hc
      refine ⟨(hto.parent_live _ _ h1).1, ?_⟩
      rintro rfl
      obtain ⟨e, he, rfl⟩ := List.mem_map.1 hu
      exact hpanic rfl e he h1
  | some p =>
    have hps : parent.isSome = true := by rw [hp]; rfl
    have hne := hentry hps
    rw [← hp, hps]
    simp only [if_true]
    have hc20 := C20_set_parent other hto other.entrypoint other.moduleRoot
    have hna : ¬ Above other.hier.parent other.moduleRoot other.entrypoint := by
      intro ha; exact hne (ha.eq_of_top hto.root_top).symm
    obtain ⟨o, ho⟩ := hc20.1.2 ⟨hto.entry_live, hto.root_live, hna⟩
    obtain ⟨ht, hm⟩ := hc20.2 o ho
    have hrest := hm.rest
    have hentryKept : other.entrypoint ∈ keptRoots other parent children := by
      unfold keptRoots; rw [hps]; simp
    -- the module root and the old parent of the entrypoint are not copied
    have hrootK : ¬ Kept other parent children other.moduleRoot := by
      rintro ⟨r, hr, ha⟩
      have h1 := ha.eq_of_top hto.root_top
      rcases hkr r hr with ⟨_, h2⟩ | h2
      · exact hne (h2.symm.trans h1.symm)
      · rw [← h1, hto.root_top] at h2; cases h2
    have hparK : ∀ q, other.hier.parent other.entrypoint = some q → ¬ Kept other parent children q := by
      rintro q hq ⟨r, hr, ha⟩
      rcases mem_linkBlocks ((keptRoots_iff r).1 hr) with ⟨_, h2⟩ | ⟨⟨n, d⟩, hc, h2⟩
      · have : r = other.entrypoint := by simpa using h2
        subst this
        exact hto.acyclic _ _ hq ha
      · have h3 : r = n := by simpa using congrArg Prod.fst h2
        have h4 : d.adds = true := by simpa using (congrArg Prod.snd h2).symm
        subst h3
        cases d with
        | useExisting _ => cases h4
        | add rs => exact hcon.entry_added hps _ hc rs rfl (.step hq ha)
    refine ⟨o, ho, ht.ok, ?_, ?_, ?_, ?_, ?_, ?_, ?_, ?_, ?_, ?_, ?_, ?_, ?_⟩
    · rw [hrest]
    · rw [hrest]
    · rw [hrest]
    · rw [hrest]
    · rw [hrest]
    · intro x hx
      have : o.live = other.live := by rw [hrest]
      rw [this]; exact hl x hx
    · intro x _
      have : o.ops = other.ops := by rw [hrest]
      rw [this]
    · have : o.links = other.links := by rw [hrest]
      rw [this]
    · intro x hx
      have h1 : x ≠ other.moduleRoot := by rintro rfl; exact hrootK hx
      rw [hm.others x h1, List.filter_eq_self]
      intro y hy
      simp only [ne_eq, decide_not, Bool.not_eq_true', decide_eq_false_iff_not]
      rintro rfl
      exact hparK x ((hto.child_iff x _).1 hy) hx
    · intro x hx hr
      rw [hm.parent, if_neg]
      rintro rfl
      exact hr hentryKept
    · intro x hx
      rw [hm.parent]
      split
      · rfl
      · rename_i hxe
        rcases hx with hx | hx
        · rcases hkr x hx with ⟨_, h⟩ | h
          · exact absurd h hxe
          · exact h
        · exact hcr x hx
    · rw [hm.parent, if_neg (Ne.symm hne)]
      exact hto.root_top
    · intro u hu c hc
      have h1 := (ht.child_iff u c).1 hc
      refine ⟨(ht.parent_live _ _ h1).1, ?_⟩
      intro hce
      have h2 : o.entrypoint = other.entrypoint := by rw [hrest]
      rw [h2] at hce
      rw [hm.parent, if_pos hce] at h1
      exact used_not_root hto hcon hu (by simpa using h1.symm)

end

/-! ## Inserting from the pruned graph -/

/-- A search that meets the same children finds the same nodes. -/
theorem bfs_congr {ch ch' : Nat → List Nat} {S : Nat → Prop} (hS : ∀ x, S x → ∀ y ∈ ch x, S y)
    (he : ∀ x, S x → ch' x = ch x) (fuel : Nat) (Q : List Nat) (hQ : ∀ x ∈ Q, S x) :
    bfs ch' fuel Q = bfs ch fuel Q := by
  induction fuel generalizing Q with
  | zero => simp [bfs]
  | succ fuel ih =>
    cases Q with
    | nil => simp [bfs]
    | cons x Q =>
      have hx := hQ x (by simp)
      rw [bfs, bfs, he x hx, ih]
      intro y hy
      rcases List.mem_append.1 hy with hy | hy
      · exact hQ y (List.mem_cons_of_mem _ hy)
      · exact hS x hx y hy

theorem filterMap_only {α β : Type} {F : α → Option β} {p : α → Bool} (l : List α)
    (h : ∀ x ∈ l, p x = false → F x = none) : l.filterMap F = (l.filter p).filterMap F := by
  induction l with
  | nil => rfl
  | cons x l ih =>
    have ih := ih fun y hy => h y (List.mem_cons_of_mem _ hy)
    cases hp : p x with
    | true => rw [List.filter_cons_of_pos hp, List.filterMap_cons, List.filterMap_cons, ih]
    | false =>
      rw [List.filter_cons_of_neg (by simp [hp]), List.filterMap_cons, h x (by simp) hp, ih]

theorem newLinks_congr {o other : Hugr Op Meta} {N : List Nat} (hi : o.ins = other.ins)
    (hou : o.outs = other.outs)
    (hl : (o.links.filter fun l => l.src ∈ N ∧ l.dst ∈ N) =
      other.links.filter fun l => l.src ∈ N ∧ l.dst ∈ N)
    {map : List (Nat × Nat)} (hmap : ∀ k ∈ map.map Prod.fst, k ∈ N) {old : Nat} (hold : old ∈ N)
    (new : Nat) : newLinks o map old new = newLinks other map old new := by
  have key : ∀ k v, map.lookup k = some v → k ∈ N := by
    intro k v h
    exact hmap k (List.mem_map.2 ⟨_, mem_of_lookup h, rfl⟩)
  have h1 : ∀ tgt, ((o.linkedOutputs old tgt).filterMap fun q =>
      (map.lookup q.1).map fun neigh => ({ src := neigh, srcPort := q.2, dst := new, dstPort := tgt } : Link)) =
      ((other.linkedOutputs old tgt).filterMap fun q =>
      (map.lookup q.1).map fun neigh => ({ src := neigh, srcPort := q.2, dst := new, dstPort := tgt } : Link)) := by
    intro tgt
    unfold Hugr.linkedOutputs
    simp only [List.filterMap_map, List.filterMap_filter]
    rw [filterMap_only (p := fun l => decide (l.src ∈ N ∧ l.dst ∈ N)) o.links, hl,
      ← filterMap_only (p := fun l => decide (l.src ∈ N ∧ l.dst ∈ N)) other.links]
    all_goals
      intro l _ hp
      simp only [decide_eq_false_iff_not, not_and] at hp
      split
      · rename_i hd
        simp only [Bool.and_eq_true, decide_eq_true_eq] at hd
        simp only [Function.comp]
        cases hk : map.lookup l.src with
        | none => rfl
        | some v => exact absurd (hd.1 ▸ hold) (hp (key _ _ hk))
      · rfl
  have h2 : ∀ src, ((o.linkedInputs old src).filterMap fun q =>
      if q.1 = old then none else (map.lookup q.1).map fun neigh =>
        ({ src := new, srcPort := src, dst := neigh, dstPort := q.2 } : Link)) =
      ((other.linkedInputs old src).filterMap fun q =>
      if q.1 = old then none else (map.lookup q.1).map fun neigh =>
        ({ src := new, srcPort := src, dst := neigh, dstPort := q.2 } : Link)) := by
    intro src
    unfold Hugr.linkedInputs
    simp only [List.filterMap_map, List.filterMap_filter]
    rw [filterMap_only (p := fun l => decide (l.src ∈ N ∧ l.dst ∈ N)) o.links, hl,
      ← filterMap_only (p := fun l => decide (l.src ∈ N ∧ l.dst ∈ N)) other.links]
    all_goals
      intro l _ hp
      simp only [decide_eq_false_iff_not, not_and] at hp
      split
      · rename_i hd
        simp only [Bool.and_eq_true, decide_eq_true_eq] at hd
        simp only [Function.comp]
        split
        · rfl
        · cases hk : map.lookup l.dst with
          | none => rfl
          | some v => exact absurd (key _ _ hk) (hp (hd.1 ▸ hold))
      · rfl
  unfold newLinks
  simp only [h1, h2, hi, hou]

theorem insertNodes_congr (I : OpInfo Op) {o other : Hugr Op Meta} {N : List Nat}
    (hi : o.ins = other.ins) (hou : o.outs = other.outs)
    (hl : (o.links.filter fun l => l.src ∈ N ∧ l.dst ∈ N) =
      other.links.filter fun l => l.src ∈ N ∧ l.dst ∈ N)
    (pairs : List (Nat × Nat)) (hp : ∀ e ∈ pairs, e.1 ∈ N) (host : Hugr Op Meta)
    (map : List (Nat × Nat)) (hmap : ∀ k ∈ map.map Prod.fst, k ∈ N) :
    insertNodes I o pairs host map = insertNodes I other pairs host map := by
  induction pairs generalizing host map with
  | nil => rfl
  | cons e pairs ih =>
    obtain ⟨old, new⟩ := e
    have hold : old ∈ N := hp (old, new) (by simp)
    have hmap' : ∀ k ∈ ((old, new) :: map).map Prod.fst, k ∈ N := by
      intro k hk
      rw [List.map_cons, List.mem_cons] at hk
      rcases hk with rfl | hk
      · exact hold
      · exact hmap k hk
    rw [insertNodes, insertNodes, newLinks_congr hi hou hl hmap' hold, hi, hou]
    have : ∀ h, insertNodes I o pairs h ((old, new) :: map) =
        insertNodes I other pairs h ((old, new) :: map) :=
      fun h => ih (fun e he => hp e (List.mem_cons_of_mem _ he)) h _ hmap'
    simp only [this]

section
variable {host other : Hugr Op Meta} {parent : Option Nat} {children : List (Nat × Directive)}

theorem linkBlocks_flags (hto : IsTree other) (hnd : (children.map Prod.fst).Nodup)
    (hcon : Consistent other parent children) :
    (linkRoots host other parent children).map (fun e =>
      (e.1, decide (e.1 ∈ keptRoots other parent children))) = linkBlocks other parent children := by
  have hn := (linkBlocks_ok hto hnd hcon).1
  have hk := linkRoots_keys host other parent children
  have : (linkRoots host other parent children).map (fun e =>
      (e.1, decide (e.1 ∈ keptRoots other parent children))) =
      ((linkBlocks other parent children).map Prod.fst).map fun n =>
        (n, decide (n ∈ keptRoots other parent children)) := by
    rw [← hk, List.map_map]; rfl
  rw [this, List.map_map]
  conv_rhs => rw [← List.map_id (linkBlocks other parent children)]
  apply List.map_congr_left
  rintro ⟨n, b⟩ hb
  simp only [Function.comp, id_eq, Prod.mk.injEq, true_and]
  have h1 : n ∈ keptRoots other parent children ↔ b = true := by
    rw [keptRoots_iff]
    constructor
    · intro h
      have := List.inj_on_of_nodup_map hn h hb rfl
      simpa using (congrArg Prod.snd this).symm
    · rintro rfl; exact hb
  rw [decide_eq_decide.2 h1]
  cases b <;> rfl

theorem foldl_upd_congr {α : Type} {F G : Nat → α} (l : List (Nat × Nat)) (h : ∀ e ∈ l, F e.1 = G e.1)
    (m : Nat → α) :
    l.foldl (fun m e => upd m e.2 (F e.1)) m = l.foldl (fun m e => upd m e.2 (G e.1)) m := by
  induction l generalizing m with
  | nil => rfl
  | cons e l ih =>
    rw [List.foldl_cons, List.foldl_cons, h e (by simp), ih fun e he => h e (List.mem_cons_of_mem _ he)]

/-- `insert_forest` from the pruned graph. -/
theorem insertPruned (I : OpInfo Op) (hth : IsTree host) (hlh : LinksOk host) (hto : IsTree other)
    (hlo : LinksOk other) (hnd : (children.map Prod.fst).Nodup)
    (hcon : Consistent other parent children) (htg : Targets host other parent children)
    {roots : List (Nat × Nat)} (hroots : roots.Perm (linkRoots host other parent children))
    {news : List Nat} (hlen : news.length = (linkNodes other parent children).length)
    (hall : Allocated host news) {o : Hugr Op Meta} (ho : Pruned other parent children o)
    (hused : ∀ e ∈ uses children, o.hier.children e.1 = []) :
    ∃ nodes h1 map f, host.insertForest I o roots news = .done h1 map ∧
      (∀ x, x ∈ nodes ↔ x ∈ linkNodes other parent children) ∧
      (∀ x ∈ nodes, map.lookup x = some (f x)) ∧ Inserted host other nodes roots f h1 ∧
      IsTree h1 ∧ LinksOk h1 ∧
      (∀ x, Kept other parent children x → h1.hier.children (f x) = (other.hier.children x).map f) ∧
      ∀ x ∈ nodes, h1.metadata (f x) = other.metadata x := by
  have hflags := linkBlocks_flags (host := host) hto hnd hcon
  obtain ⟨hbn, hbl, hap⟩ := linkBlocks_ok hto hnd hcon
  generalize hbd : (roots.map fun e => (e.1, decide (e.1 ∈ keptRoots other parent children))) = blocks
  have hperm : blocks.Perm (linkBlocks other parent children) := by
    rw [← hbd, ← hflags]; exact hroots.map _
  have hbn' : (blocks.map Prod.fst).Nodup := (hperm.map _).nodup_iff.2 hbn
  have hbl' : ∀ b ∈ blocks, other.live b.1 = true := fun b hb => hbl b (hperm.mem_iff.1 hb)
  have hap' : BlocksApart other blocks := fun b hb d hd => hap b (hperm.mem_iff.1 hb) d (hperm.mem_iff.1 hd)
  have hrk : (roots.map Prod.fst).Perm (blocks.map Prod.fst) := by
    rw [← hbd, List.map_map]; exact .refl _
  have hins := blocks_insertable (host := host) hto hbn' hbl' hap' hrk
      fun e he => linkRoots_live hth htg (hroots.mem_iff.1 he)
  have hnodes : (blocks.flatMap (blockNodes other)).Perm (linkNodes other parent children) := by
    rw [linkNodes_eq]; exact hperm.flatMap_right _
  have hmem : ∀ x, x ∈ blocks.flatMap (blockNodes other) ↔ x ∈ linkNodes other parent children :=
    fun x => hnodes.mem_iff
  have hmemk := mem_linkNodes hto hnd hcon
  -- the nodes found in the pruned graph
  have hdesc : (roots.flatMap fun r => o.descendants r.1) = blocks.flatMap (blockNodes other) := by
    rw [← hbd, List.flatMap_map]
    apply List.flatMap_congr
    intro e he
    have hb : (e.1, decide (e.1 ∈ keptRoots other parent children)) ∈ linkBlocks other parent children := by
      rw [← hperm.mem_iff, ← hbd]; exact List.mem_map_of_mem he
    unfold blockNodes
    simp only []
    by_cases hk : e.1 ∈ keptRoots other parent children
    · rw [decide_eq_true hk, if_pos rfl]
      unfold Hugr.descendants
      rw [ho.cap]
      apply bfs_congr (S := Kept other parent children)
      · intro x hx y hy; exact kept_child hto hx hy
      · intro x hx; exact ho.kept_children x hx
      · intro x hx
        rw [List.mem_singleton] at hx
        subst hx
        exact ⟨_, hk, .refl _⟩
    · rw [decide_eq_false hk, if_neg (by simp)]
      have hu : o.hier.children e.1 = [] := by
        rcases mem_linkBlocks hb with ⟨hp, h⟩ | ⟨⟨n, d⟩, hc, h⟩
        · have : decide (e.1 ∈ keptRoots other parent children) = true := congrArg Prod.snd h
          exact absurd (of_decide_eq_true this) hk
        · cases d with
          | add rs =>
            have : decide (e.1 ∈ keptRoots other parent children) = true := congrArg Prod.snd h
            exact absurd (of_decide_eq_true this) hk
          | useExisting tn =>
            have h1 : e.1 = n := congrArg Prod.fst h
            rw [h1]
            exact hused (n, tn) (mem_uses.2 hc)
      unfold Hugr.descendants
      rw [bfs, List.nil_append]
      have : o.children e.1 = [] := hu
      rw [this]
      cases o.cap <;> simp [bfs]
  -- no root is below another
  have hpar : ∀ e ∈ roots, o.hier.parent e.1 = some other.moduleRoot ∧ e.1 ∈ linkNodes other parent children := by
    intro e he
    have hb : (e.1, decide (e.1 ∈ keptRoots other parent children)) ∈ blocks := by
      rw [← hbd]; exact List.mem_map_of_mem he
    constructor
    · apply ho.root_parent
      rcases mem_linkBlocks (hperm.mem_iff.1 hb) with ⟨hp, h⟩ | ⟨⟨n, d⟩, hc, h⟩
      · left
        have : decide (e.1 ∈ keptRoots other parent children) = true := congrArg Prod.snd h
        exact of_decide_eq_true this
      · cases d with
        | add rs =>
          left
          have : decide (e.1 ∈ keptRoots other parent children) = true := congrArg Prod.snd h
          exact of_decide_eq_true this
        | useExisting tn =>
          right
          have h1 : e.1 = n := congrArg Prod.fst h
          rw [h1]
          exact List.mem_map.2 ⟨(n, tn), mem_uses.2 hc, rfl⟩
    · rw [← hmem]
      exact (hins.roots_mem e he).1
  have hnr : ∀ e ∈ roots, e.1 ≠ other.moduleRoot := by
    intro e he h
    have := (hpar e he).1
    rw [h, ho.root_top] at this
    cases this
  have hbelow : (roots.any fun r => belowRoot o roots (o.cap + 1) r.1) = false := by
    rw [List.any_eq_false]
    intro e he
    have hg : o.getParent e.1 = some other.moduleRoot := by
      unfold Hugr.getParent
      rw [ho.live _ (hpar e he).2, ho.root]
      have : (e.1 != other.moduleRoot) = true := by simpa using hnr e he
      rw [this]; exact (hpar e he).1
    have hg' : o.getParent other.moduleRoot = none := by
      unfold Hugr.getParent
      rw [ho.root]
      simp
    have hlk : roots.lookup other.moduleRoot = none := by
      rw [lookup_none_iff]
      intro hc
      obtain ⟨d, hd, h⟩ := List.mem_map.1 hc
      exact hnr d hd h
    rw [belowRoot, hg]
    simp only [hlk, Option.isSome_none, Bool.false_or]
    cases o.cap with
    | zero => simp [belowRoot]
    | succ k => rw [belowRoot, hg']; simp
  unfold Hugr.insertForest
  rw [hbelow, hdesc]
  simp only [Bool.false_eq_true, if_false]
  have hch : ∀ x, Kept other parent children x →
      ((blocks.flatMap (blockNodes other)).filter fun y =>
        y ∉ roots.map Prod.fst ∧ other.hier.parent y = some x) = other.hier.children x := by
    intro x hx
    obtain ⟨b, hb, hb2, hxb⟩ := (kept_iff hto hnd hcon x).1 hx
    exact blocks_children hto hbn' hbl' hap' hrk (hperm.mem_iff.2 hb) hb2
      (blockNodes_above hto (hbl b hb) hxb)
  have hlen' : news.length = (blocks.flatMap (blockNodes other)).length := by
    rw [hlen, hnodes.length_eq]
  generalize blocks.flatMap (blockNodes other) = nodes at hins hch hlen' hmem
  have e1 := zip_fst hlen'
  have e2 := zip_snd hlen'
  generalize nodes.zip news = pairs at e1 e2
  subst e1 e2
  have hpn : ∀ e ∈ pairs, e.1 ∈ linkNodes other parent children := fun e he =>
    (hmem e.1).1 (List.mem_map_of_mem (f := Prod.fst) he)
  obtain ⟨h1, hr, hi⟩ := insertInternal_spec' I (o := o) hth hlh hto hlo hins hall
    (insertNodes_congr I ho.ins ho.outs ho.links pairs hpn host [] (by simp))
    (by
      intro x hx hxr q hq
      have hxn := (hmem x).1 hx
      have hkx : Kept other parent children x ∧ x ∉ keptRoots other parent children := by
        have hnk : x ∉ keptRoots other parent children := by
          intro hk
          apply hxr
          rw [hrk.mem_iff]
          exact List.mem_map.2 ⟨(x, true), hperm.mem_iff.2 ((keptRoots_iff x).1 hk), rfl⟩
        refine ⟨?_, hnk⟩
        rcases (hmemk x).1 hxn with h | h
        · exact h
        · exfalso
          apply hxr
          rw [hrk.mem_iff]
          obtain ⟨⟨n, tn⟩, he, rfl⟩ := List.mem_map.1 h
          refine List.mem_map.2 ⟨(n, false), hperm.mem_iff.2 ?_, rfl⟩
          exact List.mem_append_right _ (List.mem_map.2 ⟨_, mem_uses.1 he, rfl⟩)
      have h2 := ho.kept_parent x hkx.1 hkx.2
      unfold Hugr.getParent
      rw [ho.live x hxn, ho.root]
      have h3 : x ≠ other.moduleRoot := by
        rintro rfl; rw [hto.root_top] at hq; cases hq
      have : (x != other.moduleRoot) = true := by simpa using h3
      rw [this, h2]; exact hq)
  obtain ⟨q1, q2, q3⟩ := inserted_of_copy hth hlh hto hlo hins hall hi
    (pairs.reverse.foldl (fun m e => upd m e.2 (other.metadata e.1)) h1.metadata)
    (by
      intro m hm
      rw [foldl_upd_ne, hi.same.2.2.2]
      intro hc
      rw [List.map_reverse, List.mem_reverse] at hc
      rw [hall.fresh m hc] at hm; cases hm)
  refine ⟨pairs.map Prod.fst, _, pairs.reverse, nodeMap pairs, ?_, hmem, ?_, q1, q2, q3, ?_, ?_⟩
  · rw [hr]
    simp only []
    rw [foldl_upd_congr (F := o.ops) (G := other.ops) _ (fun e he =>
      ho.ops _ (hpn e (List.mem_reverse.1 he))), ho.metadata]
  · intro x hx; rw [lookup_reverse hins.nodup]; exact nodeMap_lookup hx
  · intro x hx
    have hx' : x ∈ pairs.map Prod.fst := (hmem x).2 ((hmemk x).2 (.inl hx))
    rw [q1.node_children x hx', hch x hx]
  · intro x hx
    have hmem' : (x, nodeMap pairs x) ∈ pairs.reverse := by
      apply mem_of_lookup; rw [lookup_reverse hins.nodup]; exact nodeMap_lookup hx
    exact foldl_upd_mem other.metadata pairs.reverse h1.metadata hi.vals hmem'

end

end Verif.Graph
