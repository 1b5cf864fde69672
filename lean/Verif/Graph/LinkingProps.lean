import Verif.Graph.LinkingLemmas
import Verif.Graph.LinkingCheck

/-!
# Linking

The property is C42 of `/verif/properties.jsonl`.
-/
namespace Verif.Graph

variable {Op Meta : Type}

/-! ## Blocks: what is copied -/

/-- The nodes of a block: a node, alone or with all nodes below it. -/
def blockNodes (other : Hugr Op Meta) (b : Nat × Bool) : List Nat :=
  if b.2 then other.descendants b.1 else [b.1]

/-- No node of a block is in another. -/
def BlocksApart (other : Hugr Op Meta) (blocks : List (Nat × Bool)) : Prop :=
  ∀ b ∈ blocks, ∀ d ∈ blocks, d.2 = true → Above other.hier.parent b.1 d.1 → b.1 = d.1

theorem mem_blockNodes {other : Hugr Op Meta} (hto : IsTree other) {b : Nat × Bool}
    (hb : other.live b.1 = true) (x : Nat) :
    x ∈ blockNodes other b ↔ if b.2 = true then Above other.hier.parent x b.1 else x = b.1 := by
  unfold blockNodes
  by_cases h : b.2 = true
  · rw [if_pos h, if_pos h]; exact (descendants_enumerates hto hb).mem x
  · rw [if_neg h, if_neg h]; simp

theorem blockNodes_above {other : Hugr Op Meta} (hto : IsTree other) {b : Nat × Bool}
    (hb : other.live b.1 = true) {x : Nat} (hx : x ∈ blockNodes other b) :
    Above other.hier.parent x b.1 := by
  rw [mem_blockNodes hto hb] at hx
  split at hx
  · exact hx
  · rw [hx]; exact .refl _

theorem blocks_eq {other : Hugr Op Meta} (hto : IsTree other) {blocks : List (Nat × Bool)}
    (hlive : ∀ b ∈ blocks, other.live b.1 = true) (hap : BlocksApart other blocks) {b d : Nat × Bool}
    (hb : b ∈ blocks) (hd : d ∈ blocks) {x : Nat} (h1 : x ∈ blockNodes other b)
    (h2 : x ∈ blockNodes other d) : b.1 = d.1 := by
  have a1 := blockNodes_above hto (hlive b hb) h1
  have a2 := blockNodes_above hto (hlive d hd) h2
  rw [mem_blockNodes hto (hlive b hb)] at h1
  rw [mem_blockNodes hto (hlive d hd)] at h2
  by_cases hb2 : b.2 = true
  · by_cases hd2 : d.2 = true
    · rcases a1.total a2 with h3 | h3
      · exact hap b hb d hd hd2 h3
      · exact (hap d hd b hb hb2 h3).symm
    · rw [if_neg hd2] at h2
      subst h2
      exact (hap d hd b hb hb2 a1).symm
  · rw [if_neg hb2] at h1
    subst h1
    by_cases hd2 : d.2 = true
    · exact hap b hb d hd hd2 a2
    · rw [if_neg hd2] at h2; exact h2

theorem blocks_insertable {host other : Hugr Op Meta} (hto : IsTree other)
    {blocks : List (Nat × Bool)} {roots : List (Nat × Nat)} (hnd : (blocks.map Prod.fst).Nodup)
    (hlive : ∀ b ∈ blocks, other.live b.1 = true) (hap : BlocksApart other blocks)
    (hroots : (roots.map Prod.fst).Perm (blocks.map Prod.fst))
    (hpar : ∀ e ∈ roots, host.live e.2 = true) :
    Insertable host other (blocks.flatMap (blockNodes other)) roots := by
  refine ⟨?_, ?_, hroots.nodup_iff.2 hnd, ?_, ?_⟩
  · intro x hx
    obtain ⟨b, hb, hx⟩ := List.mem_flatMap.1 hx
    have := blockNodes_above hto (hlive b hb) hx
    cases this with
    | refl => exact hlive b hb
    | step hp _ => exact (hto.parent_live _ _ hp).1
  · rw [List.nodup_flatMap]
    refine ⟨?_, ?_⟩
    · intro b hb
      unfold blockNodes
      split
      · exact (descendants_enumerates hto (hlive b hb)).nodup
      · simp
    · rw [List.Nodup, List.pairwise_map] at hnd
      refine hnd.imp_of_mem ?_
      intro a b ha hb hne x hxa hxb
      exact hne (blocks_eq hto hlive hap ha hb hxa hxb)
  · intro e he
    refine ⟨?_, hpar e he⟩
    have : e.1 ∈ blocks.map Prod.fst := hroots.mem_iff.1 (List.mem_map_of_mem (f := Prod.fst) he)
    obtain ⟨b, hb, hbe⟩ := List.mem_map.1 this
    refine List.mem_flatMap.2 ⟨b, hb, ?_⟩
    rw [mem_blockNodes hto (hlive b hb), ← hbe]
    split
    · exact .refl _
    · rfl
  · intro x hx hxr
    obtain ⟨b, hb, hxb⟩ := List.mem_flatMap.1 hx
    have hxk : x ≠ b.1 := by
      rintro rfl
      exact hxr (hroots.mem_iff.2 (List.mem_map_of_mem (f := Prod.fst) hb))
    have hxb' := hxb
    rw [mem_blockNodes hto (hlive b hb)] at hxb
    split at hxb
    · rename_i hb2
      generalize hbk : b.1 = k at hxb
      cases hxb with
      | refl => exact absurd hbk.symm hxk
      | @step _ q _ hp hq =>
        subst hbk
        exact ⟨q, List.mem_flatMap.2 ⟨b, hb, by
          rw [mem_blockNodes hto (hlive b hb), if_pos hb2]; exact hq⟩, hp⟩
    · exact absurd hxb hxk

/-- The nodes of a whole block keep their children, in order. -/
theorem blocks_children {other : Hugr Op Meta} (hto : IsTree other)
    {blocks : List (Nat × Bool)} {roots : List (Nat × Nat)} (hnd : (blocks.map Prod.fst).Nodup)
    (hlive : ∀ b ∈ blocks, other.live b.1 = true) (hap : BlocksApart other blocks)
    (hroots : (roots.map Prod.fst).Perm (blocks.map Prod.fst)) {b : Nat × Bool} (hb : b ∈ blocks)
    (hb2 : b.2 = true) {x : Nat} (hxb : Above other.hier.parent x b.1) :
    ((blocks.flatMap (blockNodes other)).filter fun y =>
      y ∉ roots.map Prod.fst ∧ other.hier.parent y = some x) = other.hier.children x := by
  have hxm : x ∈ blockNodes other b := by
    rw [mem_blockNodes hto (hlive b hb), if_pos hb2]; exact hxb
  rw [List.filter_flatMap, flatMap_only hb (List.Nodup.of_map _ hnd)]
  · have hen := descendants_enumerates hto (hlive b hb)
    have he : blockNodes other b = other.descendants b.1 := by unfold blockNodes; rw [if_pos hb2]
    rw [he] at hxm ⊢
    rw [← hen.siblings x hxm]
    apply List.filter_congr
    intro y hy
    simp only [decide_eq_decide]
    constructor
    · rintro ⟨h1, h2⟩
      refine ⟨fun hc => h1 ?_, h2⟩
      rw [hc]
      exact hroots.mem_iff.2 (List.mem_map_of_mem (f := Prod.fst) hb)
    · rintro ⟨h1, h2⟩
      refine ⟨?_, h2⟩
      intro hc
      obtain ⟨d, hd, hdy⟩ := List.mem_map.1 (hroots.mem_iff.1 hc)
      apply h1
      have := hap d hd b hb hb2 (by rw [hdy]; exact (hen.mem _).1 hy)
      rw [hdy] at this; exact this
  · intro d hd hde
    rw [List.filter_eq_nil_iff]
    intro y hy
    simp only [decide_eq_true_eq, not_and]
    intro hyr hyx
    have hyk : y ≠ d.1 := by
      rintro rfl
      exact hyr (hroots.mem_iff.2 (List.mem_map_of_mem (f := Prod.fst) hd))
    have hym := hy
    rw [mem_blockNodes hto (hlive d hd)] at hy
    by_cases hd2 : d.2 = true
    · rw [if_pos hd2] at hy
      generalize hdk : d.1 = k at hy
      cases hy with
      | refl => exact hyk hdk.symm
      | step hp h2 =>
        subst hdk
        rw [hyx] at hp; cases hp
        have : x ∈ blockNodes other d := by
          rw [mem_blockNodes hto (hlive d hd), if_pos hd2]; exact h2
        have h3 := blocks_eq hto hlive hap hd hb this hxm
        exact hde (List.inj_on_of_nodup_map hnd hd hb h3)
    · rw [if_neg hd2] at hy; exact hyk hy

/-- The directive is to add. -/
def Directive.adds : Directive → Bool
  | .add _ => true
  | .useExisting _ => false

/-- The blocks that are copied. -/
def linkBlocks (other : Hugr Op Meta) (parent : Option Nat) (children : List (Nat × Directive)) :
    List (Nat × Bool) :=
  (if parent.isSome then [(other.entrypoint, true)] else []) ++ children.map fun c => (c.1, c.2.adds)

theorem linkNodes_eq (other : Hugr Op Meta) (parent : Option Nat) (children : List (Nat × Directive)) :
    linkNodes other parent children = (linkBlocks other parent children).flatMap (blockNodes other) := by
  unfold linkNodes linkBlocks
  rw [List.flatMap_append, List.flatMap_map]
  congr 1
  · cases parent <;> simp [blockNodes]
  · congr 1
    funext c
    obtain ⟨n, d⟩ := c
    cases d <;> simp [blockNodes, Directive.adds]

theorem linkRoots_keys (host other : Hugr Op Meta) (parent : Option Nat)
    (children : List (Nat × Directive)) : (linkRoots host other parent children).map Prod.fst =
      (linkBlocks other parent children).map Prod.fst := by
  unfold linkRoots linkBlocks
  cases parent <;> simp [Function.comp_def]

theorem mem_linkBlocks {other : Hugr Op Meta} {parent : Option Nat}
    {children : List (Nat × Directive)} {b : Nat × Bool} (hb : b ∈ linkBlocks other parent children) :
    (parent.isSome = true ∧ b = (other.entrypoint, true)) ∨
      ∃ c ∈ children, b = (c.1, c.2.adds) := by
  unfold linkBlocks at hb
  rcases List.mem_append.1 hb with h | h
  · cases parent with
    | none => simp at h
    | some p => left; simpa using h
  · right
    obtain ⟨c, hc, rfl⟩ := List.mem_map.1 h
    exact ⟨c, hc, rfl⟩

theorem keptRoots_iff {other : Hugr Op Meta} {parent : Option Nat}
    {children : List (Nat × Directive)} (r : Nat) :
    r ∈ keptRoots other parent children ↔ (r, true) ∈ linkBlocks other parent children := by
  unfold keptRoots linkBlocks
  rw [List.mem_append, List.mem_append]
  have h1 : (r ∈ if parent.isSome then [other.entrypoint] else []) ↔
      ((r, true) ∈ if parent.isSome then [(other.entrypoint, true)] else []) := by
    cases parent <;> simp
  rw [h1]
  refine or_congr Iff.rfl ?_
  rw [List.mem_flatMap, List.mem_map]
  constructor
  · rintro ⟨⟨n, d⟩, hc, hr⟩
    cases d with
    | add rs =>
      simp only [List.mem_singleton] at hr
      subst hr
      exact ⟨_, hc, rfl⟩
    | useExisting tn => simp at hr
  · rintro ⟨⟨n, d⟩, hc, hr⟩
    cases d with
    | add rs =>
      simp only [Directive.adds, Prod.mk.injEq, and_true] at hr
      subst hr
      exact ⟨_, hc, by simp⟩
    | useExisting tn => simp [Directive.adds] at hr

section
variable {other : Hugr Op Meta} {parent : Option Nat} {children : List (Nat × Directive)}

/-- A child of the module root, and what is above it. -/
theorem above_child (hto : IsTree other) {c x : Nat}
    (hc : other.hier.parent c = some other.moduleRoot) (ha : Above other.hier.parent c x) :
    x = c ∨ x = other.moduleRoot := by
  cases ha with
  | refl => exact .inl rfl
  | step hp ha =>
    rw [hc] at hp; cases hp
    exact .inr (ha.eq_of_top hto.root_top).symm

theorem linkBlocks_ok (hto : IsTree other) (hnd : (children.map Prod.fst).Nodup)
    (hcon : Consistent other parent children) :
    ((linkBlocks other parent children).map Prod.fst).Nodup ∧
    (∀ b ∈ linkBlocks other parent children, other.live b.1 = true) ∧
    BlocksApart other (linkBlocks other parent children) := by
  refine ⟨?_, ?_, ?_⟩
  · unfold linkBlocks
    rw [List.map_append, List.map_map]
    have : (Prod.fst ∘ fun c : Nat × Directive => (c.1, c.2.adds)) = Prod.fst := rfl
    rw [this]
    cases hp : parent with
    | none => simpa using hnd
    | some p =>
      have h1 := hcon.entry_child (by rw [hp]; rfl)
      simp only [Option.isSome_some, if_true, List.map_cons, List.map_nil, List.singleton_append,
        List.nodup_cons]
      exact ⟨h1, hnd⟩
  · intro b hb
    rcases mem_linkBlocks hb with ⟨_, rfl⟩ | ⟨c, hc, rfl⟩
    · exact hto.entry_live
    · exact (hto.parent_live _ _ (hcon.of_root c hc)).1
  · intro b hb d hd hd2 ha
    rcases mem_linkBlocks hb with ⟨hp, rfl⟩ | ⟨c, hc, rfl⟩
    · rcases mem_linkBlocks hd with ⟨_, rfl⟩ | ⟨c, hc, rfl⟩
      · rfl
      · exfalso
        simp only at hd2 ha
        cases hcd : c.2 with
        | useExisting _ => rw [hcd] at hd2; cases hd2
        | add rs => exact hcon.entry_added hp c hc rs hcd ha
    · rcases above_child hto (hcon.of_root c hc) ha with h1 | h1
      · exact h1.symm
      · exfalso
        rcases mem_linkBlocks hd with ⟨hp, rfl⟩ | ⟨c', hc', rfl⟩
        · simp only at h1
          rw [hcon.entry_root hp h1] at hc
          simp at hc
        · simp only at h1
          have := hcon.of_root c' hc'
          rw [h1, hto.root_top] at this
          cases this

theorem kept_iff (hto : IsTree other) (hnd : (children.map Prod.fst).Nodup)
    (hcon : Consistent other parent children) (x : Nat) :
    Kept other parent children x ↔
      ∃ b ∈ linkBlocks other parent children, b.2 = true ∧ x ∈ blockNodes other b := by
  have hlive := (linkBlocks_ok hto hnd hcon).2.1
  unfold Kept
  constructor
  · rintro ⟨r, hr, ha⟩
    have hb := (keptRoots_iff r).1 hr
    exact ⟨_, hb, rfl, by rw [mem_blockNodes hto (hlive _ hb), if_pos rfl]; exact ha⟩
  · rintro ⟨⟨r, b2⟩, hb, hb2, hx⟩
    simp only at hb2
    subst hb2
    rw [mem_blockNodes hto (hlive _ hb), if_pos rfl] at hx
    exact ⟨r, (keptRoots_iff r).2 hb, hx⟩

/-- What is copied is what is to be inserted and the nodes for which an existing one is used. -/
theorem mem_linkNodes (hto : IsTree other) (hnd : (children.map Prod.fst).Nodup)
    (hcon : Consistent other parent children) (x : Nat) :
    x ∈ linkNodes other parent children ↔
      Kept other parent children x ∨ x ∈ (uses children).map Prod.fst := by
  have hlive := (linkBlocks_ok hto hnd hcon).2.1
  rw [linkNodes_eq, List.mem_flatMap, kept_iff hto hnd hcon]
  constructor
  · rintro ⟨b, hb, hx⟩
    by_cases hb2 : b.2 = true
    · exact .inl ⟨b, hb, hb2, hx⟩
    · right
      rw [mem_blockNodes hto (hlive _ hb), if_neg hb2] at hx
      rcases mem_linkBlocks hb with ⟨hp, rfl⟩ | ⟨⟨n, d⟩, hc, rfl⟩
      · exact absurd rfl hb2
      · cases d with
        | add rs => exact absurd rfl hb2
        | useExisting tn =>
          simp only at hx
          subst hx
          exact List.mem_map.2 ⟨(x, tn), mem_uses.2 hc, rfl⟩
  · rintro (⟨b, hb, _, hx⟩ | hx)
    · exact ⟨b, hb, hx⟩
    · obtain ⟨⟨n, tn⟩, hu, rfl⟩ := List.mem_map.1 hx
      have hc := mem_uses.1 hu
      refine ⟨(n, false), List.mem_append_right _ (List.mem_map.2 ⟨_, hc, rfl⟩), ?_⟩
      simp [blockNodes]

theorem key_eq (hnd : (children.map Prod.fst).Nodup) {n : Nat} {d d' : Directive}
    (h : (n, d) ∈ children) (h' : (n, d') ∈ children) : d = d' := by
  have := List.inj_on_of_nodup_map hnd h h' rfl
  cases this; rfl

/-- A node for which an existing one is used is not inserted. -/
theorem uses_not_kept (hto : IsTree other) (hnd : (children.map Prod.fst).Nodup)
    (hcon : Consistent other parent children) {e : Nat × Nat} (he : e ∈ uses children) :
    ¬ Kept other parent children e.1 := by
  obtain ⟨h1, hlive, hap⟩ := linkBlocks_ok hto hnd hcon
  rw [kept_iff hto hnd hcon]
  rintro ⟨b, hb, hb2, hx⟩
  have hc := mem_uses.1 he
  have hmem : (e.1, false) ∈ linkBlocks other parent children :=
    List.mem_append_right _ (List.mem_map.2 ⟨_, hc, rfl⟩)
  have hx' : e.1 ∈ blockNodes other (e.1, false) := by simp [blockNodes]
  have h2 := blocks_eq hto hlive hap hmem hb hx' hx
  have := List.inj_on_of_nodup_map h1 hmem hb h2
  rw [← this] at hb2
  cases hb2

theorem uses_nodup (hnd : (children.map Prod.fst).Nodup) : ((uses children).map Prod.fst).Nodup := by
  induction children with
  | nil => simp [uses]
  | cons c cs ih =>
    rw [List.map_cons, List.nodup_cons] at hnd
    rw [uses_cons, List.map_append]
    obtain ⟨n, d⟩ := c
    cases d with
    | add rs => simpa [uses] using ih hnd.2
    | useExisting tn =>
      have : (uses [(n, Directive.useExisting tn)]).map Prod.fst = [n] := by simp [uses]
      rw [this, List.singleton_append, List.nodup_cons]
      refine ⟨?_, ih hnd.2⟩
      intro hc
      obtain ⟨e, he, hen⟩ := List.mem_map.1 hc
      exact hnd.1 (List.mem_map.2 ⟨_, mem_uses.1 he, hen⟩)

/-- A node that replaces another is inserted. -/
theorem replacement_kept {e : Nat × Nat}
    (he : e ∈ replacements children) : e.2 ∈ keptRoots other parent children := by
  obtain ⟨rs, h1, _⟩ := mem_replacements.1 he
  unfold keptRoots
  exact List.mem_append_right _ (List.mem_flatMap.2 ⟨_, h1, by simp⟩)

end

/-! ## Linking -/

theorem resolveAll_some {map : List (Nat × Nat)} {f : Nat → Nat} (l : List (Nat × Nat))
    (h : ∀ e ∈ l, map.lookup e.1 = some (f e.1)) :
    resolveAll map l = some (l.map fun e => (f e.1, e.2)) := by
  induction l with
  | nil => rfl
  | cons e l ih =>
    obtain ⟨a, b⟩ := e
    rw [resolveAll, h (a, b) (by simp), ih fun e he => h e (List.mem_cons_of_mem _ he)]
    rfl

theorem lookup_perm {l l' : List (Nat × Nat)} (hp : l.Perm l') (hnd : (l.map Prod.fst).Nodup) (k : Nat) :
    l.lookup k = l'.lookup k := by
  cases h : l.lookup k with
  | none =>
    symm
    rw [lookup_none_iff] at h ⊢
    rwa [← (hp.map _).mem_iff]
  | some v =>
    symm
    exact lookup_of_mem ((hp.map _).nodup_iff.1 hnd) (hp.mem_iff.1 (mem_of_lookup h))

theorem lookup_map_snd (l : List (Nat × Nat)) (f : Nat → Nat) (k : Nat) :
    (l.map fun e => (e.1, f e.2)).lookup k = (l.lookup k).map f := by
  induction l with
  | nil => rfl
  | cons e l ih =>
    obtain ⟨a, b⟩ := e
    rw [List.map_cons, List.lookup_cons, List.lookup_cons]
    cases k == a with
    | true => rfl
    | false => exact ih

theorem lookup_map_fst (l : List (Nat × Nat)) (f : Nat → Nat) (S : Nat → Prop) (hl : ∀ e ∈ l, S e.1)
    (hf : ∀ x y, S x → S y → f x = f y → x = y) (k : Nat) (hk : S k) :
    (l.map fun e => (f e.1, e.2)).lookup (f k) = l.lookup k := by
  induction l with
  | nil => rfl
  | cons e l ih =>
    obtain ⟨a, b⟩ := e
    rw [List.map_cons, List.lookup_cons, List.lookup_cons]
    have ih' := ih fun e he => hl e (List.mem_cons_of_mem _ he)
    by_cases hka : k = a
    · subst hka; simp
    · have h1 : (k == a) = false := by simpa using hka
      have h2 : (f k == f a) = false := by
        have : f k ≠ f a := fun h => hka (hf k a hk (hl (a, b) (by simp)) h)
        simpa using this
      rw [h1, h2]
      exact ih'

theorem lookup_filter_key (l : List (Nat × Nat)) (p : Nat → Bool) (k : Nat) :
    (l.filter fun e => p e.1).lookup k = if p k then l.lookup k else none := by
  induction l with
  | nil => simp
  | cons e l ih =>
    obtain ⟨a, b⟩ := e
    by_cases hp : p a = true
    · rw [List.filter_cons_of_pos (by simpa using hp), List.lookup_cons, List.lookup_cons]
      by_cases hka : k = a
      · subst hka; simp [hp]
      · have h1 : (k == a) = false := by simpa using hka
        rw [h1]; exact ih
    · rw [List.filter_cons_of_neg (by simpa using hp), ih, List.lookup_cons]
      by_cases hka : k = a
      · subst hka; simp [hp]
      · have h1 : (k == a) = false := by simpa using hka
        rw [h1]

theorem above_closed {parent : Nat → Option Nat} {S : Nat → Prop}
    (hS : ∀ m q, S m → parent m = some q → S q) {a b : Nat} (ha : S a) (h : Above parent a b) : S b := by
  induction h with
  | refl => exact ha
  | step hp _ ih => exact ih (hS _ _ ha hp)

theorem single_of_filter {h : Hugr Op Meta} {l : Link}
    (hf : (h.links.filter fun x => x.dst = l.dst && x.dstPort = l.dstPort).Perm [l]) :
    h.linkedOutputs l.dst l.dstPort = [(l.src, l.srcPort)] := by
  unfold Hugr.linkedOutputs
  rw [List.perm_singleton.1 hf]; rfl

section
variable {host other : Hugr Op Meta} {parent : Option Nat} {children : List (Nat × Directive)}

theorem kept_child (hto : IsTree other) {x y : Nat}
    (hx : Kept other parent children x) (hy : y ∈ other.hier.children x) :
    Kept other parent children y := by
  obtain ⟨r, hr, ha⟩ := hx
  exact ⟨r, hr, .step ((hto.child_iff x y).1 hy) ha⟩

/-- `link_by_node` after the copies have been inserted. -/
theorem link_spec (I : OpInfo Op) (hth : IsTree host) (hlh : LinksOk host) (hto : IsTree other)
    (hnd : (children.map Prod.fst).Nodup)
    (hcon : Consistent other parent children) (htg : Targets host other parent children)
    {roots : List (Nat × Nat)} (hroots : roots.Perm (linkRoots host other parent children))
    {nodes : List Nat}
    (hmem : ∀ x, x ∈ nodes ↔ Kept other parent children x ∨ x ∈ (uses children).map Prod.fst)
    {f : Nat → Nat} {h1 : Hugr Op Meta} (hins : Inserted host other nodes roots f h1)
    (ht1 : IsTree h1) (hl1 : LinksOk h1)
    (hch : ∀ x, Kept other parent children x → h1.hier.children (f x) = (other.hier.children x).map f)
    {map : List (Nat × Nat)} (hmap : ∀ x ∈ nodes, map.lookup x = some (f x)) {t : Transfers}
    (hu : t.useExisting.Perm (uses children)) (hr : t.replace.Perm (replacements children)) :
    ∃ g map', linkByNode I h1 t map = some (g, map') ∧
      Linked host other parent children roots f g ∧ IsTree g ∧ LinksOk g ∧
      (∀ x, Kept other parent children x → map'.lookup x = some (f x)) ∧
      (∀ e ∈ uses children, map'.lookup e.1 = none) ∧
      (∀ x, Kept other parent children x → g.metadata (f x) = h1.metadata (f x)) := by
  classical
  -- basic facts
  have hkn : ∀ x, Kept other parent children x → x ∈ nodes := fun x hx => (hmem x).2 (.inl hx)
  have hun : ∀ e ∈ uses children, e.1 ∈ nodes := fun e he =>
    (hmem _).2 (.inr (List.mem_map_of_mem (f := Prod.fst) he))
  have hfresh := hins.fresh
  have hinj := hins.injective
  have hlive1 := hins.live
  have hnl : ∀ x ∈ nodes, h1.live (f x) = true := fun x hx => (hlive1 _).2 (.inr ⟨x, hx, rfl⟩)
  have hhl : ∀ m, host.live m = true → h1.live m = true := fun m hm => (hlive1 m).2 (.inl hm)
  have hne : ∀ x ∈ nodes, ∀ m, host.live m = true → f x ≠ m := by
    intro x hx m hm he
    rw [← he, hfresh x hx] at hm; cases hm
  have hup : ∀ m b, host.live m = true → (Above h1.hier.parent m b ↔ Above host.hier.parent m b) := by
    intro m b hm
    exact above_iff_of_eq (live := fun m => host.live m = true)
      (fun m hm => (hins.host_node m hm).2.2.2.2) (fun m q _ hp => (hth.parent_live m q hp).2) hm
  have hmr : host.live host.moduleRoot = true := hth.root_live
  have huk : ∀ e ∈ uses children, ¬ Kept other parent children e.1 :=
    fun e he => uses_not_kept hto hnd hcon he
  have hrk : ∀ e ∈ replacements children, Kept other parent children e.2 :=
    fun e he => ⟨e.2, replacement_kept he, .refl _⟩
  have hrootGone : ¬ Gone host children host.moduleRoot := by
    rintro ⟨e, he, ha⟩
    exact (htg.replaced e he).2.1 (ha.eq_of_top hth.root_top).symm
  have hentryGone : ¬ Gone host children host.entrypoint := by
    rintro ⟨e, he, ha⟩
    exact (htg.replaced e he).2.2 ha
  have hrootsMem : ∀ e ∈ roots, (parent = some e.2 ∧ e.1 = other.entrypoint) ∨
      (e.2 = host.moduleRoot ∧ e.1 ∈ children.map Prod.fst) := by
    intro e he
    have := hroots.mem_iff.1 he
    unfold linkRoots at this
    rcases List.mem_append.1 this with h | h
    · left
      cases hp : parent with
      | none => rw [hp] at h; simp at h
      | some p =>
        rw [hp] at h
        simp only [List.mem_singleton] at h
        subst h; exact ⟨rfl, rfl⟩
    · right
      obtain ⟨c, hc, rfl⟩ := List.mem_map.1 h
      exact ⟨rfl, List.mem_map_of_mem (f := Prod.fst) hc⟩
  have huRoot : ∀ e ∈ uses children, h1.hier.parent (f e.1) = some host.moduleRoot := by
    intro e he
    have : (e.1, host.moduleRoot) ∈ roots := by
      rw [hroots.mem_iff]
      exact List.mem_append_right _ (List.mem_map.2 ⟨_, mem_uses.1 he, rfl⟩)
    exact hins.root_parent _ this
  -- the nodes that are left are closed upwards
  let S : Nat → Prop := fun m => (host.live m = true ∧ ¬ Gone host children m) ∨
    ∃ x, Kept other parent children x ∧ f x = m
  have hSup : ∀ m q, S m → h1.hier.parent m = some q → S q := by
    rintro m q (⟨a, b⟩ | ⟨x, hx, rfl⟩) hp
    · rw [(hins.host_node m a).2.2.2.2] at hp
      refine .inl ⟨(hth.parent_live m q hp).2, ?_⟩
      rintro ⟨e, he, ha⟩
      exact b ⟨e, he, .step hp ha⟩
    · by_cases hxr : x ∈ roots.map Prod.fst
      · obtain ⟨e, he, rfl⟩ := List.mem_map.1 hxr
        rw [hins.root_parent e he] at hp
        cases hp
        rcases hrootsMem e he with ⟨h2, _⟩ | ⟨h2, _⟩
        · exact .inl (htg.parent_ok _ h2)
        · rw [h2]; exact .inl ⟨hmr, hrootGone⟩
      · rw [hins.node_parent x (hkn x hx) hxr] at hp
        obtain ⟨y, hy, rfl⟩ := Option.map_eq_some_iff.1 hp
        refine .inr ⟨y, ?_, rfl⟩
        obtain ⟨r, hr, ha⟩ := hx
        cases ha with
        | refl =>
          exfalso; apply hxr
          have hb := (keptRoots_iff x).1 hr
          rw [(hroots.map Prod.fst).mem_iff, linkRoots_keys]
          exact List.mem_map.2 ⟨_, hb, rfl⟩
        | step hq ha =>
          rw [hy] at hq; cases hq
          exact ⟨r, hr, ha⟩
  have hSu : ∀ e ∈ uses children, ¬ S (f e.1) := by
    rintro e he (⟨a, _⟩ | ⟨x, hx, hxe⟩)
    · exact hne _ (hun e he) _ a rfl
    · have := hinj x (hkn x hx) e.1 (hun e he) hxe
      rw [this] at hx
      exact huk e he hx
  have hSr : ∀ e ∈ replacements children, ¬ S e.1 := by
    rintro e he (⟨_, b⟩ | ⟨x, hx, hxe⟩)
    · exact b ⟨e, he, .refl _⟩
    · exact hne x (hkn x hx) e.1 (htg.replaced e he).1 hxe
  have hSl : ∀ m, S m → h1.live m = true := by
    rintro m (⟨a, _⟩ | ⟨x, hx, rfl⟩)
    · exact hhl m a
    · exact hnl x (hkn x hx)
  have hhu : ∀ m, host.live m = true → ∀ e ∈ uses children, ¬ Above h1.hier.parent m (f e.1) := by
    intro m hm e he ha
    rw [hup m _ hm] at ha
    have : host.live (f e.1) = true :=
      above_closed (S := fun m => host.live m = true) (fun m q _ hp => (hth.parent_live m q hp).2) hm ha
    exact hne _ (hun e he) _ this rfl
  -- the transfers
  let U := t.useExisting.map fun e => (f e.1, e.2)
  let R := t.replace.map fun e => (e.1, f e.2)
  have hUm : ∀ d ∈ U, ∃ e ∈ uses children, d = (f e.1, e.2) := by
    intro d hd
    obtain ⟨e, he, rfl⟩ := List.mem_map.1 hd
    exact ⟨e, hu.mem_iff.1 he, rfl⟩
  have hUm' : ∀ e ∈ uses children, (f e.1, e.2) ∈ U := fun e he =>
    List.mem_map.2 ⟨e, hu.mem_iff.2 he, rfl⟩
  have hRm : ∀ d ∈ R, ∃ e ∈ replacements children, d = (e.1, f e.2) := by
    intro d hd
    obtain ⟨e, he, rfl⟩ := List.mem_map.1 hd
    exact ⟨e, hr.mem_iff.1 he, rfl⟩
  have hRm' : ∀ e ∈ replacements children, (e.1, f e.2) ∈ R := fun e he =>
    List.mem_map.2 ⟨e, hr.mem_iff.2 he, rfl⟩
  have hund := uses_nodup hnd
  have hund' : (t.useExisting.map Prod.fst).Nodup := (hu.map _).nodup_iff.2 hund
  have hrnd' : (t.replace.map Prod.fst).Nodup := (hr.map _).nodup_iff.2 hcon.once
  have hUlook : ∀ x ∈ nodes, U.lookup (f x) = (uses children).lookup x := by
    intro x hx
    rw [← lookup_perm hu hund']
    exact lookup_map_fst t.useExisting f (fun x => x ∈ nodes)
      (fun e he => hun e (hu.mem_iff.1 he)) (fun x y a b => hinj x a y b) x hx
  have hRlook : ∀ m, R.lookup m = ((replacements children).lookup m).map f := by
    intro m
    rw [← lookup_perm hr hrnd']
    exact lookup_map_snd t.replace f m
  have hUhost : ∀ m, host.live m = true → U.lookup m = none := by
    intro m hm
    rw [lookup_none_iff]
    intro hc
    obtain ⟨d, hd, hdm⟩ := List.mem_map.1 hc
    obtain ⟨e, he, rfl⟩ := hUm d hd
    exact hne _ (hun e he) m hm hdm
  have hRfresh : ∀ x ∈ nodes, R.lookup (f x) = none := by
    intro x hx
    rw [lookup_none_iff]
    intro hc
    obtain ⟨d, hd, hdm⟩ := List.mem_map.1 hc
    obtain ⟨e, he, rfl⟩ := hRm d hd
    exact hne x hx _ (htg.replaced e he).1 hdm.symm
  -- the links after inserting
  have hlinksMem : ∀ l ∈ h1.links, l ∈ host.links ∨ ∃ k ∈ other.links, k.src ∈ nodes ∧ k.dst ∈ nodes ∧
      l = k.rename f := by
    intro l hl
    rcases List.mem_append.1 (hins.links.mem_iff.1 hl) with h | h
    · exact .inl h
    · right
      obtain ⟨k, hk, rfl⟩ := List.mem_map.1 h
      rw [List.mem_filter] at hk
      simp only [decide_eq_true_eq] at hk
      exact ⟨k, hk.1, hk.2.1, hk.2.2, rfl⟩
  have hsingleHost : ∀ l ∈ host.links, host.linkedOutputs l.dst l.dstPort = [(l.src, l.srcPort)] →
      (h1.links.filter fun x => x.dst = l.dst && x.dstPort = l.dstPort).Perm [l] := by
    intro l hl hs
    refine (hins.links.filter _).trans (List.Perm.of_eq ?_)
    rw [List.filter_append, linkedOutputs_single hs]
    have : (((other.links.filter fun l => l.src ∈ nodes ∧ l.dst ∈ nodes).map (Link.rename f)).filter
        fun x => x.dst = l.dst && x.dstPort = l.dstPort) = [] := by
      rw [List.filter_eq_nil_iff]
      intro x hx hc
      obtain ⟨k, hk, rfl⟩ := List.mem_map.1 hx
      rw [List.mem_filter] at hk
      simp only [decide_eq_true_eq, Bool.and_eq_true] at hk hc
      exact hne _ hk.2.2 _ (hlh l hl).2.2.1 hc.1
    rw [this, List.append_nil]
  have hsingleOther : ∀ k ∈ other.links, k.src ∈ nodes → k.dst ∈ nodes →
      other.linkedOutputs k.dst k.dstPort = [(k.src, k.srcPort)] →
      (h1.links.filter fun x => x.dst = (k.rename f).dst && x.dstPort = (k.rename f).dstPort).Perm
        [k.rename f] := by
    intro k hk hks hkd hs
    refine (hins.links.filter _).trans (List.Perm.of_eq ?_)
    rw [List.filter_append]
    have e1 : (host.links.filter fun x => x.dst = (k.rename f).dst && x.dstPort = (k.rename f).dstPort) = [] := by
      rw [List.filter_eq_nil_iff]
      intro x hx hc
      simp only [decide_eq_true_eq, Bool.and_eq_true] at hc
      exact hne _ hkd _ (hlh x hx).2.2.1 hc.1.symm
    rw [e1, List.nil_append, List.filter_map, List.filter_filter]
    have e2 : other.links.filter (fun a => ((fun x : Link => decide (x.dst = (k.rename f).dst) &&
          decide (x.dstPort = (k.rename f).dstPort)) ∘ Link.rename f) a &&
          decide (a.src ∈ nodes ∧ a.dst ∈ nodes)) = [k] := by
      have := linkedOutputs_single hs
      have h5 : other.links.filter (fun a => ((fun x : Link => decide (x.dst = (k.rename f).dst) &&
          decide (x.dstPort = (k.rename f).dstPort)) ∘ Link.rename f) a &&
          decide (a.src ∈ nodes ∧ a.dst ∈ nodes)) =
          (other.links.filter fun l => l.dst = k.dst && l.dstPort = k.dstPort).filter
            fun a => decide (a.src ∈ nodes ∧ a.dst ∈ nodes) := by
        rw [List.filter_filter]
        apply List.filter_congr
        intro a _
        rw [Bool.eq_iff_iff]
        simp only [Function.comp, Bool.and_eq_true, decide_eq_true_eq]
        constructor
        · rintro ⟨⟨a1, a2⟩, a3, a4⟩
          exact ⟨⟨a3, a4⟩, hinj _ a4 _ hkd a1, a2⟩
        · rintro ⟨⟨a3, a4⟩, a1, a2⟩
          exact ⟨⟨congrArg f a1, a2⟩, a3, a4⟩
      rw [h5, this]
      simp [hks, hkd]
    rw [e2]; rfl
  -- first phase
  have hR1 : Replaceable h1 U := by
    constructor
    · have : U.map Prod.fst = (t.useExisting.map Prod.fst).map f := by
        simp [U, List.map_map, Function.comp_def]
      rw [this]
      apply List.Nodup.map_on _ hund'
      intro x hx y hy he
      obtain ⟨a, ha, rfl⟩ := List.mem_map.1 hx
      obtain ⟨b, hb, rfl⟩ := List.mem_map.1 hy
      exact hinj _ (hun a (hu.mem_iff.1 ha)) _ (hun b (hu.mem_iff.1 hb)) he
    · intro d hd; obtain ⟨e, he, rfl⟩ := hUm d hd; exact hnl _ (hun e he)
    · intro d hd; obtain ⟨e, he, rfl⟩ := hUm d hd
      rw [hins.root_entry.1]; exact hne _ (hun e he) _ hmr
    · intro d hd; obtain ⟨e, he, rfl⟩ := hUm d hd
      rw [hins.root_entry.2]
      exact hhu _ hth.entry_live e he
    · intro d hd d' hd' ha
      obtain ⟨e, he, rfl⟩ := hUm d hd
      obtain ⟨e', he', rfl⟩ := hUm d' hd'
      simp only at ha ⊢
      generalize hz : f e'.1 = z at ha ⊢
      cases ha with
      | refl => rfl
      | step hp ha =>
        exfalso
        rw [huRoot e he] at hp; cases hp
        rw [← hz] at ha
        exact hhu _ hmr e' he' ha
    · intro d hd; obtain ⟨e, he, rfl⟩ := hUm d hd; exact hhl _ (htg.used e he).1
    · intro d hd d' hd'
      obtain ⟨e, he, rfl⟩ := hUm d hd
      obtain ⟨e', he', rfl⟩ := hUm d' hd'
      exact hhu _ (htg.used e he).1 e' he'
    · intro d hd l hl hls
      obtain ⟨e, he, rfl⟩ := hUm d hd
      simp only at hls ⊢
      rcases hlinksMem l hl with h | ⟨k, hk, hks, hkd, rfl⟩
      · exact absurd hls.symm (hne _ (hun e he) _ (hlh l h).1)
      · have hke : k.src = e.1 := hinj _ hks _ (hun e he) hls
        obtain ⟨a, b, c⟩ := htg.used_links e he k hk hke
        refine ⟨single_of_filter (hsingleOther k hk hks hkd a), ?_⟩
        rw [(hins.host_node _ (htg.used e he).1).2.2.1]
        exact b
  obtain ⟨g1, hg1, hs1, htg1, hlg1⟩ := replaceAll_ok I U ht1 hl1 hR1
  -- second phase
  have hSg1 : ∀ m, S m → g1.live m = true := by
    intro m hm
    rw [hs1.live]
    refine ⟨hSl m hm, ?_⟩
    intro d hd ha
    obtain ⟨e, he, rfl⟩ := hUm d hd
    exact hSu e he (above_closed hSup hm ha)
  have hhg1 : ∀ m, host.live m = true → g1.live m = true := by
    intro m hm
    rw [hs1.live]
    refine ⟨hhl m hm, ?_⟩
    intro d hd
    obtain ⟨e, he, rfl⟩ := hUm d hd
    exact hhu m hm e he
  have hup1 : ∀ m b, host.live m = true → (Above g1.hier.parent m b ↔ Above host.hier.parent m b) := by
    intro m b hm
    rw [hs1.above ht1 b (hhg1 m hm), hup m b hm]
  have hrS : ∀ e ∈ replacements children, S (f e.2) := fun e he => .inr ⟨e.2, hrk e he, rfl⟩
  have hlinks1 : ∀ l ∈ g1.links, (l ∈ host.links) ∨
      ∃ k ∈ other.links, k.src ∈ nodes ∧ k.dst ∈ nodes ∧ l = Link.reroute U (k.rename f) := by
    intro l hl
    rw [hs1.links.mem_iff, List.mem_filter, List.mem_map] at hl
    obtain ⟨⟨x, hx, rfl⟩, _⟩ := hl
    rcases hlinksMem x hx with h | ⟨k, hk, a, b, rfl⟩
    · left
      have : Link.reroute U x = x := by
        unfold Link.reroute
        rw [hUhost _ (hlh x h).1]; rfl
      rw [this]; exact h
    · exact .inr ⟨k, hk, a, b, rfl⟩
  have hsingle1 : ∀ l ∈ g1.links, ∀ x : Link, l = Link.reroute U x →
      (h1.links.filter fun y => y.dst = x.dst && y.dstPort = x.dstPort).Perm [x] →
      g1.linkedOutputs l.dst l.dstPort = [(l.src, l.srcPort)] := by
    intro l hl x hlx hx
    apply single_of_filter
    have hlv := hl
    rw [hs1.links.mem_iff, List.mem_filter] at hlv
    refine (hs1.links.filter _).trans (List.Perm.of_eq ?_)
    apply filter_single (q := fun l : Link => g1.live l.src && g1.live l.dst) hlv.2 (by simp)
    rw [List.filter_map]
    have e1 : ((fun y : Link => decide (y.dst = l.dst) && decide (y.dstPort = l.dstPort)) ∘
        Link.reroute U) = (fun y : Link => decide (y.dst = x.dst) && decide (y.dstPort = x.dstPort)) := by
      rw [hlx]; rfl
    rw [e1, List.perm_singleton.1 hx, hlx]
    rfl
  have hR2 : Replaceable g1 R := by
    constructor
    · have : R.map Prod.fst = t.replace.map Prod.fst := by simp [R, List.map_map, Function.comp_def]
      rw [this]; exact hrnd'
    · intro d hd; obtain ⟨e, he, rfl⟩ := hRm d hd; exact hhg1 _ (htg.replaced e he).1
    · intro d hd; obtain ⟨e, he, rfl⟩ := hRm d hd
      rw [hs1.roots.1, hins.root_entry.1]; exact (htg.replaced e he).2.1
    · intro d hd; obtain ⟨e, he, rfl⟩ := hRm d hd
      rw [hs1.roots.2, hins.root_entry.2, hup1 _ _ hth.entry_live]
      exact (htg.replaced e he).2.2
    · intro d hd d' hd' ha
      obtain ⟨e, he, rfl⟩ := hRm d hd
      obtain ⟨e', he', rfl⟩ := hRm d' hd'
      rw [hup1 _ _ (htg.replaced e he).1] at ha
      exact htg.apart e he e' he' ha
    · intro d hd; obtain ⟨e, he, rfl⟩ := hRm d hd; exact hSg1 _ (hrS e he)
    · intro d hd d' hd' ha
      obtain ⟨e, he, rfl⟩ := hRm d hd
      obtain ⟨e', he', rfl⟩ := hRm d' hd'
      rw [hs1.above ht1 _ (hSg1 _ (hrS e he))] at ha
      exact hSr e' he' (above_closed hSup (hrS e he) ha)
    · intro d hd l hl hls
      obtain ⟨e, he, rfl⟩ := hRm d hd
      simp only at hls ⊢
      have houts : g1.outs (f e.2) = other.outs e.2 := by
        rw [(hs1.ports _ (hSg1 _ (hrS e he))).2]
        exact (hins.node _ (hkn _ (hrk e he))).2.2
      rw [houts]
      rcases hlinks1 l hl with h | ⟨k, hk, hks, hkd, hlk⟩
      · obtain ⟨a, b⟩ := htg.replaced_links e he l h hls
        refine ⟨?_, b⟩
        refine hsingle1 l hl l ?_ (hsingleHost l h a)
        unfold Link.reroute
        rw [hUhost _ (hlh l h).1]; rfl
      · -- a link that was moved in the first phase
        have hsrc : l.src = ((uses children).lookup k.src).getD (f k.src) := by
          rw [hlk, ← hUlook _ hks]; rfl
        cases hlook : (uses children).lookup k.src with
        | none =>
          rw [hlook] at hsrc
          simp only [Option.getD_none] at hsrc
          rw [hls] at hsrc
          exact absurd hsrc.symm (hne _ hks _ (htg.replaced e he).1)
        | some tn =>
          rw [hlook] at hsrc
          simp only [Option.getD_some] at hsrc
          have hmu := mem_of_lookup hlook
          obtain ⟨a, b, c⟩ := htg.used_links _ hmu k hk rfl
          refine ⟨hsingle1 l hl _ hlk (hsingleOther k hk hks hkd a), ?_⟩
          have hsp : l.srcPort = k.srcPort := by rw [hlk]; rfl
          rw [hsp]
          apply c
          rw [← hsrc, hls]
          exact he
  obtain ⟨g, hg, hs2, htg2, hlg2⟩ := replaceAll_ok I R htg1 hlg1 hR2
  -- what is left
  have hglive : ∀ m, g.live m = true ↔ S m := by
    intro m
    rw [hs2.live]
    constructor
    · rintro ⟨a, b⟩
      have a' := (hs1.live m).1 a
      rcases (hlive1 m).1 a'.1 with hm | ⟨x, hx, rfl⟩
      · left
        refine ⟨hm, ?_⟩
        rintro ⟨e, he, ha⟩
        exact b _ (hRm' e he) ((hup1 m _ hm).2 ha)
      · rcases (hmem x).1 hx with hk | hk
        · exact .inr ⟨x, hk, rfl⟩
        · obtain ⟨e, he, rfl⟩ := List.mem_map.1 hk
          exact absurd (.refl _) (a'.2 _ (hUm' e he))
    · intro hm
      refine ⟨hSg1 m hm, ?_⟩
      intro d hd ha
      obtain ⟨e, he, rfl⟩ := hRm d hd
      rw [hs1.above ht1 _ (hSg1 m hm)] at ha
      exact hSr e he (above_closed hSup hm ha)
  have hgS : ∀ m, S m → g.live m = true := fun m hm => (hglive m).2 hm
  let map' := map.filter fun e => (t.useExisting.lookup e.1).isNone
  have hmap' : ∀ k, map'.lookup k = if ((uses children).lookup k).isNone then map.lookup k else none := by
    intro k
    rw [lookup_filter_key map (fun k => (t.useExisting.lookup k).isNone) k, lookup_perm hu hund']
  have hkeptNone : ∀ x, Kept other parent children x → (uses children).lookup x = none := by
    intro x hx
    rw [lookup_none_iff]
    intro hc
    obtain ⟨e, he, rfl⟩ := List.mem_map.1 hc
    exact huk e he hx
  have hmapKept : ∀ x, Kept other parent children x → map'.lookup x = some (f x) := by
    intro x hx
    rw [hmap', hkeptNone x hx]
    exact hmap x (hkn x hx)
  refine ⟨g, map', ?_, ?_, htg2, hlg2, hmapKept, ?_, ?_⟩
  · unfold linkByNode
    rw [resolveAll_some t.useExisting (f := f) fun e he => hmap _ (hun e (hu.mem_iff.1 he))]
    simp only []
    have e1 : h1.replaceAll I (t.useExisting.map fun e => (f e.1, e.2)) = some g1 := hg1
    rw [e1]
    simp only []
    have e2 := resolveAll_some (map := map') (f := f) (t.replace.map Prod.swap) (by
      intro e he
      obtain ⟨d, hd, rfl⟩ := List.mem_map.1 he
      exact hmapKept _ (hrk d (hr.mem_iff.1 hd)))
    rw [e2]
    simp only []
    have e3 : (((t.replace.map Prod.swap).map fun e => (f e.1, e.2)).map Prod.swap) = R := by
      simp [R, List.map_map, Function.comp_def]
    rw [e3, hg]
  · refine ⟨fun x hx => hfresh x (hkn x hx), fun x y hx hy => hinj x (hkn x hx) y (hkn y hy), hglive,
      ?_, ?_, ?_, ?_, ?_⟩
    · intro m hm hng
      have hS : S m := .inl ⟨hm, hng⟩
      obtain ⟨a, b, c, d, e⟩ := hins.host_node m hm
      refine ⟨?_, ?_, ?_, ?_, ?_⟩
      · rw [hs2.ops m (hgS m hS), hs1.ops m (hSg1 m hS), a]
      · rw [(hs2.ports m (hgS m hS)).1, (hs1.ports m (hSg1 m hS)).1, b]
      · rw [(hs2.ports m (hgS m hS)).2, (hs1.ports m (hSg1 m hS)).2, c]
      · rw [hs2.metadata m (hgS m hS), hs1.metadata m (hSg1 m hS), d]
      · rw [hs2.parent m (hgS m hS), hs1.parent m (hSg1 m hS), e]
    · intro m hm hng
      have hS : S m := .inl ⟨hm, hng⟩
      rw [hs2.children m (hgS m hS), hs1.children m (hSg1 m hS), hins.host_children m hm,
        List.filter_filter, List.filter_append]
      congr 1
      · apply List.filter_congr
        intro c hc
        have hcl : host.live c = true := (hth.parent_live _ _ ((hth.child_iff _ _).1 hc)).1
        have h1' : c ∉ U.map Prod.fst := lookup_none_iff.1 (hUhost c hcl)
        have h2' : (c ∈ R.map Prod.fst) ↔ c ∈ (replacements children).map Prod.fst := by
          rw [← (hr.map Prod.fst).mem_iff]; simp [R, List.map_map, Function.comp_def]
        rw [Bool.eq_iff_iff]
        simp only [Bool.and_eq_true, decide_eq_true_eq, h2']
        exact ⟨fun h => h.1, fun h => ⟨h, h1'⟩⟩
      · rw [List.filter_map, List.filter_filter]
        congr 1
        apply List.filter_congr
        intro e he
        have hen : e.1 ∈ nodes := by
          rw [hmem]
          have h5 : e.1 ∈ (linkBlocks other parent children).map Prod.fst := by
            rw [← linkRoots_keys host, ← (hroots.map Prod.fst).mem_iff]
            exact List.mem_map_of_mem (f := Prod.fst) he
          rw [← mem_linkNodes hto hnd hcon, linkNodes_eq]
          obtain ⟨b, hb, hbe⟩ := List.mem_map.1 h5
          refine List.mem_flatMap.2 ⟨b, hb, ?_⟩
          rw [← hbe, mem_blockNodes hto ((linkBlocks_ok hto hnd hcon).2.1 b hb)]
          split
          · exact .refl _
          · rfl
        have h1' : f e.1 ∉ R.map Prod.fst := lookup_none_iff.1 (hRfresh _ hen)
        have h2' : f e.1 ∈ U.map Prod.fst ↔ e.1 ∈ (uses children).map Prod.fst := by
          rw [← not_iff_not, ← lookup_none_iff, ← lookup_none_iff, hUlook _ hen]
        have h3' : e.1 ∉ (uses children).map Prod.fst ↔ e.1 ∈ keptRoots other parent children := by
          constructor
          · intro hnu
            rw [keptRoots_iff]
            have h5 : e.1 ∈ (linkBlocks other parent children).map Prod.fst := by
              rw [← linkRoots_keys host, ← (hroots.map Prod.fst).mem_iff]
              exact List.mem_map_of_mem (f := Prod.fst) he
            obtain ⟨b, hb, hbe⟩ := List.mem_map.1 h5
            rcases mem_linkBlocks hb with ⟨_, rfl⟩ | ⟨⟨n, d⟩, hc, rfl⟩
            · simp only at hbe; rw [← hbe]; exact hb
            · cases d with
              | add rs => simp only [Directive.adds] at hbe hb; rw [← hbe]; exact hb
              | useExisting tn =>
                exfalso; apply hnu
                simp only at hbe
                exact List.mem_map.2 ⟨(n, tn), mem_uses.2 hc, hbe⟩
          · intro hk hc
            obtain ⟨d, hd, hde⟩ := List.mem_map.1 hc
            apply huk d hd
            rw [hde]
            exact ⟨_, hk, .refl _⟩
        rw [Bool.eq_iff_iff]
        simp only [Function.comp, Bool.and_eq_true, decide_eq_true_eq, h2', h3', h1',
          not_false_eq_true, true_and]
        exact And.comm
    · intro x hx
      have hS : S (f x) := .inr ⟨x, hx, rfl⟩
      obtain ⟨a, b, c⟩ := hins.node x (hkn x hx)
      refine ⟨?_, ?_, ?_, ?_⟩
      · rw [hs2.ops _ (hgS _ hS), hs1.ops _ (hSg1 _ hS), a]
      · rw [(hs2.ports _ (hgS _ hS)).1, (hs1.ports _ (hSg1 _ hS)).1, b]
      · rw [(hs2.ports _ (hgS _ hS)).2, (hs1.ports _ (hSg1 _ hS)).2, c]
      · rw [hs2.children _ (hgS _ hS), hs1.children _ (hSg1 _ hS), hch x hx, List.filter_filter]
        rw [List.filter_eq_self]
        intro y hy
        obtain ⟨z, hz, rfl⟩ := List.mem_map.1 hy
        have hzk := kept_child hto hx hz
        have h1' : f z ∉ R.map Prod.fst := lookup_none_iff.1 (hRfresh _ (hkn z hzk))
        have h2' : f z ∉ U.map Prod.fst := by
          rw [← lookup_none_iff, hUlook _ (hkn z hzk)]; exact hkeptNone z hzk
        simp only [h1', h2', not_false_eq_true, decide_true, Bool.and_self]
    · -- links
      refine hs2.links.trans (((hs1.links.map _).filter _).trans ?_)
      rw [List.filter_map, List.filter_filter, List.filter_map, List.map_map]
      refine ((hins.links.filter _).map _).trans (List.Perm.of_eq ?_)
      rw [List.filter_append, List.map_append, List.filter_map, List.map_map, List.filter_filter]
      have hsrcHost : ∀ n, (R.lookup n).getD n = hostSource children f n := by
        intro n
        rw [hRlook]
        unfold hostSource
        cases (replacements children).lookup n <;> rfl
      have hsrcS : ∀ n, host.live n = true →
          (∀ e ∈ replacements children, Above host.hier.parent n e.1 → n = e.1) →
          S (hostSource children f n) := by
        intro n hn hap
        unfold hostSource
        cases hl : (replacements children).lookup n with
        | some sn => exact .inr ⟨sn, hrk _ (mem_of_lookup hl), rfl⟩
        | none =>
          refine .inl ⟨hn, ?_⟩
          rintro ⟨e, he, ha⟩
          have := hap e he ha
          rw [lookup_none_iff] at hl
          exact hl (List.mem_map.2 ⟨e, he, this.symm⟩)
      congr 1
      · have hrU : ∀ l ∈ host.links, Link.reroute U l = l := by
          intro l hl
          unfold Link.reroute
          rw [hUhost _ (hlh l hl).1]; rfl
        have hfil : host.links.filter (fun a =>
            ((fun a => ((fun l => g.live l.src && g.live l.dst) ∘ Link.reroute R) a &&
              (g1.live a.src && g1.live a.dst)) ∘ Link.reroute U) a) =
            host.links.filter fun l => decide (¬ Gone host children l.dst ∧
              (¬ Gone host children l.src ∨ l.src ∈ (replacements children).map Prod.fst)) := by
          apply List.filter_congr
          intro l hl
          obtain ⟨a, _, c, _⟩ := hlh l hl
          simp only [Function.comp, hrU l hl]
          have e1 : (Link.reroute R l).src = hostSource children f l.src := hsrcHost l.src
          have e2 : (Link.reroute R l).dst = l.dst := rfl
          rw [e1, e2, hhg1 _ a, hhg1 _ c, Bool.eq_iff_iff]
          simp only [Bool.and_eq_true, hglive, decide_eq_true_eq, and_true]
          have hSdst : S l.dst ↔ ¬ Gone host children l.dst := by
            constructor
            · rintro (h | ⟨x, hx, hxe⟩)
              · exact h.2
              · exact absurd hxe (hne x (hkn x hx) _ c)
            · exact fun h => .inl ⟨c, h⟩
          rw [hSdst]
          have hSsrc : S (hostSource children f l.src) ↔
              (¬ Gone host children l.src ∨ l.src ∈ (replacements children).map Prod.fst) := by
            constructor
            · intro h
              by_cases hk : l.src ∈ (replacements children).map Prod.fst
              · exact .inr hk
              · left
                unfold hostSource at h
                rw [lookup_none_iff.2 hk] at h
                rcases h with h | ⟨x, hx, hxe⟩
                · exact h.2
                · exact absurd hxe (hne x (hkn x hx) _ a)
            · rintro (h | h)
              · apply hsrcS _ a
                intro e he ha
                exact absurd ⟨e, he, ha⟩ h
              · obtain ⟨d, hd, hde⟩ := List.mem_map.1 h
                apply hsrcS _ a
                intro e he ha
                rw [← hde] at ha ⊢
                exact htg.apart d hd e he ha
          rw [hSsrc]
          exact And.comm
        rw [hfil]
        apply List.map_congr_left
        intro l hl
        have hl' := (List.mem_filter.1 hl).1
        simp only [Function.comp, hrU l hl']
        unfold Link.reroute
        rw [hsrcHost]
      · have hsrcO : ∀ k ∈ other.links, k.src ∈ nodes →
            Link.reroute R (Link.reroute U (k.rename f)) =
              { k with src := otherSource children f k.src, dst := f k.dst } := by
          intro k hk hks
          unfold Link.reroute Link.rename otherSource
          simp only []
          rw [hUlook _ hks]
          cases hl : (uses children).lookup k.src with
          | some tn =>
            simp only [Option.getD_some]
            rw [hsrcHost]
          | none =>
            simp only [Option.getD_none]
            rw [hRfresh _ hks]; rfl
        have hfil : other.links.filter (fun a =>
            (((fun a => ((fun l => g.live l.src && g.live l.dst) ∘ Link.reroute R) a &&
              (g1.live a.src && g1.live a.dst)) ∘ Link.reroute U) ∘ Link.rename f) a &&
              decide (a.src ∈ nodes ∧ a.dst ∈ nodes)) =
            other.links.filter fun l => decide (Kept other parent children l.dst ∧
              (Kept other parent children l.src ∨ l.src ∈ (uses children).map Prod.fst)) := by
          apply List.filter_congr
          intro k hk
          rw [Bool.eq_iff_iff]
          simp only [Function.comp, Bool.and_eq_true, decide_eq_true_eq]
          rw [← hmem]
          constructor
          · rintro ⟨⟨⟨_, hgd⟩, _⟩, hks, hkd⟩
            refine ⟨?_, hks⟩
            have : S (f k.dst) := (hglive _).1 hgd
            rcases this with h | ⟨x, hx, hxe⟩
            · exact absurd rfl (hne _ hkd _ h.1)
            · rw [← hinj x (hkn x hx) _ hkd hxe]; exact hx
          · rintro ⟨hkd, hks⟩
            have hSd : S (f k.dst) := .inr ⟨_, hkd, rfl⟩
            have hsrc1 : g1.live (Link.reroute U (k.rename f)).src = true := by
              have : (Link.reroute U (k.rename f)).src = ((uses children).lookup k.src).getD (f k.src) := by
                rw [← hUlook _ hks]; rfl
              rw [this]
              cases hl : (uses children).lookup k.src with
              | some tn => exact hhg1 _ (htg.used _ (mem_of_lookup hl)).1
              | none =>
                have hkk : Kept other parent children k.src := by
                  rcases (hmem _).1 hks with h | h
                  · exact h
                  · exact absurd h (lookup_none_iff.1 hl)
                exact hSg1 _ (.inr ⟨_, hkk, rfl⟩)
            have hsrc2 : g.live (Link.reroute R (Link.reroute U (k.rename f))).src = true := by
              rw [hsrcO k hk hks]
              simp only []
              unfold otherSource
              apply hgS
              cases hl : (uses children).lookup k.src with
              | some tn =>
                have := htg.used _ (mem_of_lookup hl)
                exact hsrcS tn this.1 this.2
              | none =>
                have hkk : Kept other parent children k.src := by
                  rcases (hmem _).1 hks with h | h
                  · exact h
                  · exact absurd h (lookup_none_iff.1 hl)
                exact .inr ⟨_, hkk, rfl⟩
            exact ⟨⟨⟨hsrc2, hgS _ hSd⟩, hsrc1, hSg1 _ hSd⟩, hks, hkn _ hkd⟩
        rw [hfil]
        apply List.map_congr_left
        intro k hk
        have hk' := List.mem_filter.1 hk
        have hks : k.src ∈ nodes := by
          have := hk'.2
          simp only [decide_eq_true_eq] at this
          rw [hmem]; exact this.2
        exact hsrcO k hk'.1 hks
    · rw [hs2.roots.1, hs2.roots.2, hs1.roots.1, hs1.roots.2]; exact hins.root_entry
  · intro e he
    rw [hmap', lookup_of_mem hund (show (e.1, e.2) ∈ uses children from he)]
    rfl
  · intro x hx
    have hS : S (f x) := .inr ⟨x, hx, rfl⟩
    rw [hs2.metadata _ (hgS _ hS), hs1.metadata _ (hSg1 _ hS)]

end

end Verif.Graph
