import Verif.Graph.InsertLemmas
import Verif.Graph.Canon

/-!
# C23, C45: inserting one Hugr into another copies it faithfully
-/
namespace Verif.Graph

variable {Op Meta : Type}

/-! ## Specification -/

/-- What the documentation asks: the nodes are different nodes of `other`; the roots are among them,
each given once, with a parent in the host; and of every other node the parent is among them. -/
structure Insertable (host other : Hugr Op Meta) (nodes : List Nat) (roots : List (Nat × Nat)) :
    Prop where
  nodes_live : ∀ x ∈ nodes, other.live x = true
  nodup : nodes.Nodup
  roots_nodup : (roots.map Prod.fst).Nodup
  roots_mem : ∀ e ∈ roots, e.1 ∈ nodes ∧ host.live e.2 = true
  closed : ∀ x ∈ nodes, x ∉ roots.map Prod.fst → ∃ q ∈ nodes, other.hier.parent x = some q

/-- The allocator returned different indices that were not in use. -/
structure Allocated (host : Hugr Op Meta) (news : List Nat) : Prop where
  nodup : news.Nodup
  fresh : ∀ n ∈ news, host.live n = false

/-- `h'` is `host` with a copy of `nodes` added: node `x` is now `f x`. -/
structure Inserted (host other : Hugr Op Meta) (nodes : List Nat) (roots : List (Nat × Nat))
    (f : Nat → Nat) (h' : Hugr Op Meta) : Prop where
  fresh : ∀ x ∈ nodes, host.live (f x) = false
  injective : ∀ x ∈ nodes, ∀ y ∈ nodes, f x = f y → x = y
  live : ∀ m, h'.live m = true ↔ host.live m = true ∨ ∃ x ∈ nodes, f x = m
  host_node : ∀ m, host.live m = true → h'.ops m = host.ops m ∧ h'.ins m = host.ins m ∧
    h'.outs m = host.outs m ∧ h'.metadata m = host.metadata m ∧ h'.hier.parent m = host.hier.parent m
  host_children : ∀ m, host.live m = true → h'.hier.children m =
    host.hier.children m ++ (roots.filter fun e => e.2 = m).map fun e => f e.1
  node : ∀ x ∈ nodes, h'.ops (f x) = other.ops x ∧ h'.ins (f x) = other.ins x ∧
    h'.outs (f x) = other.outs x
  root_parent : ∀ e ∈ roots, h'.hier.parent (f e.1) = some e.2
  node_parent : ∀ x ∈ nodes, x ∉ roots.map Prod.fst →
    h'.hier.parent (f x) = (other.hier.parent x).map f
  node_children : ∀ x ∈ nodes, h'.hier.children (f x) =
    (nodes.filter fun y => y ∉ roots.map Prod.fst ∧ other.hier.parent y = some x).map f
  links : h'.links.Perm (host.links ++
    (other.links.filter fun l => l.src ∈ nodes ∧ l.dst ∈ nodes).map (Link.rename f))
  root_entry : h'.moduleRoot = host.moduleRoot ∧ h'.entrypoint = host.entrypoint

/-! ## Proof -/

/-- `set_parent`, for each pair of a node and a parent. -/
def attachAll : List (Nat × Nat) → Hugr Op Meta → Option (Hugr Op Meta)
  | [], h => some h
  | e :: A, h =>
    match h.setParent e.1 e.2 with
    | none => none
    | some h' => attachAll A h'

/-- The hierarchy with parentless nodes attached. -/
def Hier.attachMany (h : Hier) (A : List (Nat × Nat)) : Hier :=
  { parent := fun i => match A.lookup i with
      | some p => some p
      | none => h.parent i
    children := fun p => h.children p ++ (A.filter fun e => e.2 == p).map Prod.fst }

theorem attachMany_nil (h : Hier) : h.attachMany [] = h := by
  unfold Hier.attachMany; simp

theorem attachMany_cons (h : Hier) (n p : Nat) (A : List (Nat × Nat)) (hn : n ∉ A.map Prod.fst) :
    (h.attach n p (h.children p ++ [n])).attachMany A = h.attachMany ((n, p) :: A) := by
  unfold Hier.attachMany Hier.attach
  congr 1
  · funext i
    rw [List.lookup_cons]
    by_cases hi : i = n
    · subst hi
      rw [lookup_none_iff.2 hn]
      simp [upd_same]
    · have : (i == n) = false := by simpa using hi
      rw [this]
      simp only [upd_ne _ _ hi]
  · funext q
    by_cases hq : q = p
    · subst hq; simp [upd_same]
    · have : ¬ (p == q) = true := by simpa using Ne.symm hq
      rw [List.filter_cons_of_neg (by simpa using this)]
      simp only [upd_ne _ _ hq]

theorem setParent_attach {h : Hugr Op Meta} {n p : Nat} (hn : h.live n = true) (hp : h.live p = true)
    (hnone : h.hier.parent n = none) (hcyc : ¬ Above h.hier.parent p n) :
    h.setParent n p = some { h with hier := h.hier.attach n p (h.hier.children p ++ [n]) } := by
  unfold Hugr.setParent
  rw [hn, hp]
  have hd : h.hier.detach n = h.hier := by unfold Hier.detach; rw [hnone]
  have hc : h.hier.canAttach h.cap n p = true := by
    unfold Hier.canAttach
    rw [hnone]
    cases hc : h.hier.onPath h.cap p n with
    | false => rfl
    | true => exact absurd (onPath_above hc) hcyc
  simp only [Bool.and_self, if_true, hd]
  unfold Hier.pushChild
  rw [hc]
  rfl

theorem attachAll_ok {F : Nat → Option Nat} (hF : Acyclic F) (A : List (Nat × Nat)) (h : Hugr Op Meta)
    (hle : ∀ m q, h.hier.parent m = some q → F m = some q) (hA : ∀ e ∈ A, F e.1 = some e.2)
    (hlive : ∀ e ∈ A, h.live e.1 = true ∧ h.live e.2 = true)
    (hnone : ∀ e ∈ A, h.hier.parent e.1 = none) (hnd : (A.map Prod.fst).Nodup) :
    attachAll A h = some { h with hier := h.hier.attachMany A } := by
  induction A generalizing h with
  | nil => simp [attachAll, attachMany_nil]
  | cons e A ih =>
    obtain ⟨n, p⟩ := e
    simp only [List.map_cons, List.nodup_cons] at hnd
    obtain ⟨l1, l2⟩ := hlive (n, p) (by simp)
    have hn := hnone (n, p) (by simp)
    have hFn := hA (n, p) (by simp)
    have hs := setParent_attach (h := h) l1 l2 hn (fun ha => hF _ _ hFn (ha.mono hle))
    simp only [attachAll, hs]
    rw [ih]
    · simp only [attachMany_cons _ _ _ _ hnd.1]
    · intro m q hm
      simp only [Hier.attach] at hm
      by_cases hmn : m = n
      · subst hmn; rw [upd_same] at hm; cases hm; exact hFn
      · rw [upd_ne _ _ hmn] at hm; exact hle m q hm
    · exact fun e he => hA e (List.mem_cons_of_mem _ he)
    · exact fun e he => hlive e (List.mem_cons_of_mem _ he)
    · intro e he
      have : e.1 ≠ n := by
        rintro rfl; exact hnd.1 (List.mem_map_of_mem (f := Prod.fst) he)
      simp only [Hier.attach, upd_ne _ _ this]
      exact hnone e (List.mem_cons_of_mem _ he)
    · exact hnd.2

theorem attachAll_append (A B : List (Nat × Nat)) (h : Hugr Op Meta) :
    attachAll (A ++ B) h = (attachAll A h).bind (attachAll B) := by
  induction A generalizing h with
  | nil => rfl
  | cons e A ih =>
    simp only [List.cons_append, attachAll]
    cases h.setParent e.1 e.2 with
    | none => rfl
    | some h' => exact ih h'

theorem attachRoots_eq {map : List (Nat × Nat)} {f : Nat → Nat} (roots : List (Nat × Nat))
    (hf : ∀ e ∈ roots, map.lookup e.1 = some (f e.1)) (h : Hugr Op Meta) :
    attachRoots map roots h = attachAll (roots.map fun e => (f e.1, e.2)) h := by
  induction roots generalizing h with
  | nil => rfl
  | cons e roots ih =>
    obtain ⟨r, p⟩ := e
    have := hf (r, p) (by simp)
    simp only [] at this
    simp only [attachRoots, List.map_cons, attachAll, this]
    cases h.setParent (f r) p with
    | none => rfl
    | some h' => exact ih (fun e he => hf e (List.mem_cons_of_mem _ he)) h'

theorem setParent_parent {h h' : Hugr Op Meta} {n p m : Nat} (hs : h.setParent n p = some h')
    (hm : m ≠ n) : h'.hier.parent m = h.hier.parent m ∧ h'.live = h.live ∧
      h'.moduleRoot = h.moduleRoot := by
  unfold Hugr.setParent at hs
  split at hs
  · obtain ⟨k, hk, rfl⟩ := withHier_some hs
    unfold Hier.pushChild at hk
    split at hk
    · cases hk
      simp only [upd_ne _ _ hm, detach_parent]
      exact ⟨trivial, trivial, trivial⟩
    · cases hk
  · cases hs

theorem attachRest_eq {o other : Hugr Op Meta} {map : List (Nat × Nat)}
    {f : Nat → Nat} {isRoot : Nat → Bool} (nodes : List Nat) (hnd : nodes.Nodup)
    (hinj : ∀ x ∈ nodes, ∀ y ∈ nodes, f x = f y → x = y)
    (hf : ∀ x ∈ nodes, map.lookup x = some (f x))
    (hpar : ∀ x ∈ nodes, isRoot x = false → ∃ q, o.getParent x = some q ∧
      other.hier.parent x = some q ∧ map.lookup q = some (f q))
    (h : Hugr Op Meta) (hlive : ∀ x ∈ nodes, h.live (f x) = true ∧ f x ≠ h.moduleRoot)
    (hroot : ∀ x ∈ nodes, h.hier.parent (f x) = none ↔ isRoot x = false) :
    attachRest o map nodes h =
      attachAll ((nodes.filter fun x => !isRoot x).map fun x =>
        (f x, f ((other.hier.parent x).getD 0))) h := by
  induction nodes generalizing h with
  | nil => rfl
  | cons x nodes ih =>
    rw [List.nodup_cons] at hnd
    have hih := fun (h' : Hugr Op Meta) a b => ih hnd.2
      (fun a ha b hb => hinj a (List.mem_cons_of_mem _ ha) b (List.mem_cons_of_mem _ hb))
      (fun a ha => hf a (List.mem_cons_of_mem _ ha))
      (fun a ha => hpar a (List.mem_cons_of_mem _ ha)) h' a b
    have hx := hf x (by simp)
    obtain ⟨l1, l2⟩ := hlive x (by simp)
    have hg : h.getParent (f x) = h.hier.parent (f x) := by
      unfold Hugr.getParent
      rw [l1]
      have : (f x != h.moduleRoot) = true := by simpa using l2
      rw [this]; rfl
    simp only [attachRest, hx, hg]
    by_cases hr : isRoot x = true
    · have hne : h.hier.parent (f x) ≠ none := by
        intro hc
        have := (hroot x (by simp)).1 hc
        rw [hr] at this; cases this
      cases hp : h.hier.parent (f x) with
      | none => exact absurd hp hne
      | some p =>
        simp only []
        rw [List.filter_cons_of_neg (by simp [hr])]
        exact hih h (fun a ha => hlive a (List.mem_cons_of_mem _ ha))
          (fun a ha => hroot a (List.mem_cons_of_mem _ ha))
    · have hr' : isRoot x = false := by simpa using hr
      have hp := (hroot x (by simp)).2 hr'
      obtain ⟨q, hgo, hq, hfq⟩ := hpar x (by simp) hr'
      simp only [hp, hgo, hfq]
      rw [List.filter_cons_of_pos (by simp [hr'])]
      simp only [List.map_cons, attachAll, hq, Option.getD_some]
      cases hs : h.setParent (f x) (f q) with
      | none => rfl
      | some h' =>
        simp only []
        have hd : ∀ a ∈ nodes, f a ≠ f x := by
          intro a ha hc
          have := hinj a (List.mem_cons_of_mem _ ha) x (by simp) hc
          subst this
          exact hnd.1 ha
        refine hih h' ?_ ?_
        · intro a ha
          obtain ⟨_, g2, g3⟩ := setParent_parent hs (hd a ha)
          rw [g2, g3]; exact hlive a (List.mem_cons_of_mem _ ha)
        · intro a ha
          rw [(setParent_parent hs (hd a ha)).1]; exact hroot a (List.mem_cons_of_mem _ ha)

/-- The attachments made: the roots, then the other nodes. -/
def attachments (other : Hugr Op Meta) (nodes : List Nat) (roots : List (Nat × Nat)) (f : Nat → Nat) :
    List (Nat × Nat) :=
  (roots.map fun e => (f e.1, e.2)) ++
    (nodes.filter fun x => !decide (x ∈ roots.map Prod.fst)).map fun x =>
      (f x, f ((other.hier.parent x).getD 0))

section Attach

variable {host other : Hugr Op Meta} {nodes : List Nat} {roots : List (Nat × Nat)} {f : Nat → Nat}

theorem attachments_nodup (hins : Insertable host other nodes roots)
    (hinj : ∀ x ∈ nodes, ∀ y ∈ nodes, f x = f y → x = y) :
    ((attachments other nodes roots f).map Prod.fst).Nodup := by
  have h1 : (attachments other nodes roots f).map Prod.fst =
      ((roots.map Prod.fst) ++ nodes.filter fun x => !decide (x ∈ roots.map Prod.fst)).map f := by
    unfold attachments
    simp [List.map_map, Function.comp_def]
  rw [h1]
  apply List.Nodup.map_on
  · intro x hx y hy
    have key : ∀ z ∈ (roots.map Prod.fst) ++ nodes.filter (fun x => !decide (x ∈ roots.map Prod.fst)),
        z ∈ nodes := by
      intro z hz
      rcases List.mem_append.1 hz with hz | hz
      · obtain ⟨e, he, rfl⟩ := List.mem_map.1 hz; exact (hins.roots_mem e he).1
      · exact (List.mem_filter.1 hz).1
    exact hinj x (key x hx) y (key y hy)
  · rw [List.nodup_append]
    refine ⟨hins.roots_nodup, hins.nodup.filter _, ?_⟩
    rintro a ha b hb rfl
    have := (List.mem_filter.1 hb).2
    simp only [ha, decide_true, Bool.not_true, Bool.false_eq_true] at this

theorem attachments_lookup (hins : Insertable host other nodes roots)
    (hinj : ∀ x ∈ nodes, ∀ y ∈ nodes, f x = f y → x = y) :
    (∀ e ∈ roots, (attachments other nodes roots f).lookup (f e.1) = some e.2) ∧
    (∀ x ∈ nodes, x ∉ roots.map Prod.fst → ∀ q, other.hier.parent x = some q →
      (attachments other nodes roots f).lookup (f x) = some (f q)) ∧
    (∀ m, (∀ x ∈ nodes, f x ≠ m) → (attachments other nodes roots f).lookup m = none) := by
  have hnd := attachments_nodup hins hinj
  refine ⟨?_, ?_, ?_⟩
  · intro e he
    apply lookup_of_mem hnd
    unfold attachments
    exact List.mem_append.2 (Or.inl (List.mem_map.2 ⟨e, he, rfl⟩))
  · intro x hx hxr q hq
    apply lookup_of_mem hnd
    unfold attachments
    refine List.mem_append.2 (Or.inr (List.mem_map.2 ⟨x, ?_, by rw [hq]; rfl⟩))
    rw [List.mem_filter]
    simp only [hxr, decide_false, Bool.not_false, and_true]; exact hx
  · intro m hm
    rw [lookup_none_iff]
    intro hc
    obtain ⟨e, he, rfl⟩ := List.mem_map.1 hc
    unfold attachments at he
    rcases List.mem_append.1 he with he | he
    · obtain ⟨r, hr, rfl⟩ := List.mem_map.1 he
      exact hm r.1 (hins.roots_mem r hr).1 rfl
    · obtain ⟨x, hx, rfl⟩ := List.mem_map.1 he
      exact hm x (List.mem_filter.1 hx).1 rfl

theorem attachments_reach (hth : IsTree host) (hto : IsTree other)
    (hins : Insertable host other nodes roots)
    (hinj : ∀ x ∈ nodes, ∀ y ∈ nodes, f x = f y → x = y)
    (hfresh : ∀ x ∈ nodes, host.live (f x) = false) :
    (∀ m, host.live m = true →
      Above (host.hier.attachMany (attachments other nodes roots f)).parent m host.moduleRoot) ∧
    (∀ x ∈ nodes,
      Above (host.hier.attachMany (attachments other nodes roots f)).parent (f x) host.moduleRoot) := by
  obtain ⟨a1, a2, a3⟩ := attachments_lookup (f := f) hins hinj
  have hhost : ∀ m, host.live m = true →
      Above (host.hier.attachMany (attachments other nodes roots f)).parent m host.moduleRoot := by
    intro m hm
    refine (hth.reaches_root m hm).mono ?_
    intro n q hq
    have hl := (hth.parent_live n q hq).1
    have : (attachments other nodes roots f).lookup n = none := by
      apply a3; rintro x hx rfl; rw [hfresh x hx] at hl; cases hl
    simp only [Hier.attachMany, this]; exact hq
  refine ⟨hhost, ?_⟩
  intro x hx
  have hr := hto.reaches_root x (hins.nodes_live x hx)
  generalize hm : other.moduleRoot = r at hr
  induction hr with
  | refl n =>
    by_cases hxr : n ∈ roots.map Prod.fst
    · obtain ⟨e, he, rfl⟩ := List.mem_map.1 hxr
      refine .step (p := e.2) ?_ (hhost _ (hins.roots_mem e he).2)
      simp only [Hier.attachMany, a1 e he]
    · obtain ⟨q, _, hq⟩ := hins.closed n hx hxr
      rw [← hm, hto.root_top] at hq; cases hq
  | @step n p m hp _ ih =>
    by_cases hxr : n ∈ roots.map Prod.fst
    · obtain ⟨e, he, rfl⟩ := List.mem_map.1 hxr
      refine .step (p := e.2) ?_ (hhost _ (hins.roots_mem e he).2)
      simp only [Hier.attachMany, a1 e he]
    · obtain ⟨q, hqn, hq⟩ := hins.closed n hx hxr
      rw [hp] at hq; cases hq
      refine .step (p := f p) ?_ (ih hqn hm)
      simp only [Hier.attachMany, a2 n hx hxr p hp]

end Attach

theorem lookup_reverse {l : List (Nat × Nat)} (hl : (l.map Prod.fst).Nodup) (k : Nat) :
    l.reverse.lookup k = l.lookup k := by
  have hl' : (l.reverse.map Prod.fst).Nodup := by
    rw [List.map_reverse]; exact List.nodup_reverse.2 hl
  cases h : l.lookup k with
  | none =>
    rw [lookup_none_iff] at h ⊢
    rw [List.map_reverse, List.mem_reverse]; exact h
  | some v => exact lookup_of_mem hl' (List.mem_reverse.2 (mem_of_lookup h))

/-- Where a node goes. -/
def nodeMap (pairs : List (Nat × Nat)) (x : Nat) : Nat := (pairs.lookup x).getD 0

theorem nodeMap_lookup {pairs : List (Nat × Nat)} {x : Nat} (hx : x ∈ pairs.map Prod.fst) :
    pairs.lookup x = some (nodeMap pairs x) := by
  unfold nodeMap
  cases h : pairs.lookup x with
  | none => exact absurd hx (lookup_none_iff.1 h)
  | some v => rfl

theorem nodeMap_inj {pairs : List (Nat × Nat)} (hv : (pairs.map Prod.snd).Nodup) :
    ∀ x ∈ pairs.map Prod.fst, ∀ y ∈ pairs.map Prod.fst, nodeMap pairs x = nodeMap pairs y → x = y := by
  intro x hx y hy hxy
  have h1 := mem_of_lookup (nodeMap_lookup hx)
  have h2 := mem_of_lookup (nodeMap_lookup hy)
  rw [hxy] at h1
  have := List.inj_on_of_nodup_map hv h1 h2 rfl
  exact (Prod.mk.injEq _ _ _ _ ▸ this).1

/-- The parent that the third loop finds. -/
theorem getParent_some {other : Hugr Op Meta} (hto : IsTree other) {x q : Nat}
    (hq : other.hier.parent x = some q) : other.getParent x = some q := by
  unfold Hugr.getParent
  have h1 := (hto.parent_live x q hq).1
  have h2 : x ≠ other.moduleRoot := by
    rintro rfl; rw [hto.root_top] at hq; cases hq
  rw [h1]
  have : (x != other.moduleRoot) = true := by simpa using h2
  rw [this]; exact hq

/-- Inserting from a graph `o` that looks like `other` to the first and the third loop. -/
theorem insertInternal_spec' (I : OpInfo Op) {host other o : Hugr Op Meta} (hth : IsTree host)
    (hlh : LinksOk host) (hto : IsTree other) (hlo : LinksOk other) {pairs roots : List (Nat × Nat)}
    (hins : Insertable host other (pairs.map Prod.fst) roots)
    (hall : Allocated host (pairs.map Prod.snd))
    (ho : insertNodes I o pairs host [] = insertNodes I other pairs host [])
    (hop : ∀ x ∈ pairs.map Prod.fst, x ∉ roots.map Prod.fst → ∀ q, other.hier.parent x = some q →
      o.getParent x = some q) :
    ∃ h1, insertForestInternal I host o pairs roots =
        .done { h1 with
          hier := host.hier.attachMany
            (attachments other (pairs.map Prod.fst) roots (nodeMap pairs)) } pairs.reverse ∧
      CopyInv host other h1 pairs.reverse := by
  have hi0 : CopyInv host other host [] := by
    refine ⟨by simp, by simp, by simp, by simp, by simp, by simp, ?_, ⟨rfl, rfl, rfl, rfl⟩, by simp⟩
    have : (mapLink []) = fun _ => none := rfl
    rw [this]; simp
  obtain ⟨h1, hr, hi⟩ := insertNodes_inv I hlh hlo pairs host [] hi0 hins.nodup (by simp) hall.nodup
    (by simp) hall.fresh
  rw [List.append_nil] at hr hi
  refine ⟨h1, ?_, hi⟩
  generalize hf : nodeMap pairs = f
  have hlook : ∀ x ∈ pairs.map Prod.fst, pairs.reverse.lookup x = some (f x) := by
    intro x hx; rw [lookup_reverse hins.nodup, ← hf]; exact nodeMap_lookup hx
  have hinj : ∀ x ∈ pairs.map Prod.fst, ∀ y ∈ pairs.map Prod.fst, f x = f y → x = y := by
    rw [← hf]; exact nodeMap_inj hall.nodup
  have hval : ∀ x ∈ pairs.map Prod.fst, f x ∈ pairs.map Prod.snd := by
    intro x hx
    have := mem_of_lookup (hlook x hx)
    exact List.mem_map_of_mem (f := Prod.snd) (List.mem_reverse.1 this)
  have hfresh : ∀ x ∈ pairs.map Prod.fst, host.live (f x) = false :=
    fun x hx => hall.fresh _ (hval x hx)
  obtain ⟨a1, a2, a3⟩ := attachments_lookup (f := f) hins hinj
  obtain ⟨r1, r2⟩ := attachments_reach (f := f) hth hto hins hinj hfresh
  have hlive1 : ∀ x ∈ pairs.map Prod.fst, h1.live (f x) = true := by
    intro x hx
    refine (hi.live _).2 (Or.inr ?_)
    rw [List.map_reverse, List.mem_reverse]; exact hval x hx
  have hroots : attachRoots pairs.reverse roots h1 =
      attachAll (roots.map fun e => (f e.1, e.2)) h1 :=
    attachRoots_eq roots (fun e he => hlook _ (hins.roots_mem e he).1) h1
  -- the final hierarchy has no cycles
  have hac : Acyclic (host.hier.attachMany (attachments other (pairs.map Prod.fst) roots f)).parent := by
    intro n p hp
    have hroot : (host.hier.attachMany
        (attachments other (pairs.map Prod.fst) roots f)).parent host.moduleRoot = none := by
      have : (attachments other (pairs.map Prod.fst) roots f).lookup host.moduleRoot = none := by
        apply a3; intro x hx hc
        have := hfresh x hx; rw [hc, hth.root_live] at this; cases this
      simp only [Hier.attachMany, this]; exact hth.root_top
    refine acyclic_of_reach ?_ hroot p hp
    by_cases hx : ∃ x ∈ pairs.map Prod.fst, f x = n
    · obtain ⟨x, hx, rfl⟩ := hx; exact r2 x hx
    · have hn : ∀ x ∈ pairs.map Prod.fst, f x ≠ n := fun x hx' hc => hx ⟨x, hx', hc⟩
      simp only [Hier.attachMany, a3 n hn] at hp
      exact r1 n (hth.parent_live n p hp).1
  have hfin := attachAll_ok hac (attachments other (pairs.map Prod.fst) roots f) h1
    (by
      rw [hi.same.1]
      intro m q hq
      have : (attachments other (pairs.map Prod.fst) roots f).lookup m = none := by
        apply a3; intro x hx hc
        have h2 := hfresh x hx; rw [hc, (hth.parent_live m q hq).1] at h2; cases h2
      simp only [Hier.attachMany, this]; exact hq)
    (by
      intro e he
      simp only [Hier.attachMany]
      rw [lookup_of_mem (attachments_nodup hins hinj) he])
    (by
      intro e he
      unfold attachments at he
      rcases List.mem_append.1 he with he | he
      · obtain ⟨r, hr', rfl⟩ := List.mem_map.1 he
        obtain ⟨g1, g2⟩ := hins.roots_mem r hr'
        exact ⟨hlive1 _ g1, (hi.live _).2 (Or.inl g2)⟩
      · obtain ⟨x, hx, rfl⟩ := List.mem_map.1 he
        obtain ⟨hx1, hx2⟩ := List.mem_filter.1 hx
        obtain ⟨q, hq, hxq⟩ := hins.closed x hx1 (by simpa using hx2)
        refine ⟨hlive1 _ hx1, ?_⟩
        simp only [hxq, Option.getD_some]; exact hlive1 _ hq)
    (by
      intro e he
      rw [hi.same.1]
      have key : ∀ x ∈ pairs.map Prod.fst, host.hier.parent (f x) = none :=
        fun x hx => (hth.dead (hfresh x hx)).1
      unfold attachments at he
      rcases List.mem_append.1 he with he | he
      · obtain ⟨r, hr', rfl⟩ := List.mem_map.1 he; exact key _ (hins.roots_mem r hr').1
      · obtain ⟨x, hx, rfl⟩ := List.mem_map.1 he; exact key _ (List.mem_filter.1 hx).1)
    (attachments_nodup hins hinj)
  rw [hi.same.1] at hfin
  unfold attachments at hfin
  rw [attachAll_append] at hfin
  unfold insertForestInternal
  rw [ho, hr]
  simp only []
  rw [hroots]
  cases h2 : attachAll (roots.map fun e => (f e.1, e.2)) h1 with
  | none => rw [h2] at hfin; cases hfin
  | some g =>
    rw [h2] at hfin
    simp only []
    -- what the second loop leaves
    have hg : g = { h1 with hier := host.hier.attachMany (roots.map fun e => (f e.1, e.2)) } := by
      have := attachAll_ok hac (roots.map fun e => (f e.1, e.2)) h1
        (by
          rw [hi.same.1]
          intro m q hq
          have : (attachments other (pairs.map Prod.fst) roots f).lookup m = none := by
            apply a3; intro x hx hc
            have h2 := hfresh x hx; rw [hc, (hth.parent_live m q hq).1] at h2; cases h2
          simp only [Hier.attachMany, this]; exact hq)
        (by
          intro e he
          obtain ⟨r, hr', rfl⟩ := List.mem_map.1 he
          simp only [Hier.attachMany]
          rw [a1 r hr'])
        (by
          intro e he
          obtain ⟨r, hr', rfl⟩ := List.mem_map.1 he
          obtain ⟨g1, g2⟩ := hins.roots_mem r hr'
          exact ⟨hlive1 _ g1, (hi.live _).2 (Or.inl g2)⟩)
        (by
          intro e he
          obtain ⟨r, hr', rfl⟩ := List.mem_map.1 he
          rw [hi.same.1]
          exact (hth.dead (hfresh _ (hins.roots_mem r hr').1)).1)
        (by
          have := attachments_nodup hins hinj
          unfold attachments at this
          rw [List.map_append, List.nodup_append] at this
          exact this.1)
      rw [h2, hi.same.1] at this
      exact Option.some.inj this
    have hrl : ∀ x ∈ pairs.map Prod.fst,
        ((roots.map fun e => (f e.1, e.2)).lookup (f x) = none ↔ x ∉ roots.map Prod.fst) := by
      intro x hx
      rw [lookup_none_iff, List.map_map]
      constructor
      · intro hc hxr
        obtain ⟨e, he, rfl⟩ := List.mem_map.1 hxr
        exact hc (List.mem_map.2 ⟨e, he, rfl⟩)
      · intro hxr hc
        obtain ⟨e, he, hex⟩ := List.mem_map.1 hc
        have := hinj _ (hins.roots_mem e he).1 x hx hex
        exact hxr (this ▸ List.mem_map_of_mem (f := Prod.fst) he)
    rw [attachRest_eq (other := other) (f := f) (isRoot := fun x => decide (x ∈ roots.map Prod.fst))
      (pairs.map Prod.fst) hins.nodup hinj hlook]
    · simp only [Option.bind_some] at hfin
      rw [hfin]
      rfl
    · intro x hx hxr
      have hxr' : x ∉ roots.map Prod.fst := by simpa using hxr
      obtain ⟨q, hq, hxq⟩ := hins.closed x hx hxr'
      exact ⟨q, hop x hx hxr' q hxq, hxq, hlook q hq⟩
    · intro x hx
      rw [hg]
      refine ⟨hlive1 x hx, ?_⟩
      simp only []
      rw [hi.same.2.1]
      intro hc
      have h3 := hfresh x hx; rw [hc, hth.root_live] at h3; cases h3
    · intro x hx
      rw [hg]
      simp only [Hier.attachMany, decide_eq_false_iff_not]
      rw [← hrl x hx]
      cases h4 : (roots.map fun e => (f e.1, e.2)).lookup (f x) with
      | none => simp only [true_iff, iff_true]; exact (hth.dead (hfresh x hx)).1
      | some v => simp

theorem insertInternal_spec (I : OpInfo Op) {host other : Hugr Op Meta} (hth : IsTree host)
    (hlh : LinksOk host) (hto : IsTree other) (hlo : LinksOk other) {pairs roots : List (Nat × Nat)}
    (hins : Insertable host other (pairs.map Prod.fst) roots)
    (hall : Allocated host (pairs.map Prod.snd)) :
    ∃ h1, insertForestInternal I host other pairs roots =
        .done { h1 with
          hier := host.hier.attachMany
            (attachments other (pairs.map Prod.fst) roots (nodeMap pairs)) } pairs.reverse ∧
      CopyInv host other h1 pairs.reverse :=
  insertInternal_spec' I hth hlh hto hlo hins hall rfl fun _ _ _ _ hq => getParent_some hto hq

theorem foldl_upd_ne {α : Type} (g : Nat → α) (map : List (Nat × Nat)) (init : Nat → α) {m : Nat}
    (hm : m ∉ map.map Prod.snd) : map.foldl (fun a e => upd a e.2 (g e.1)) init m = init m := by
  induction map generalizing init with
  | nil => rfl
  | cons e map ih =>
    simp only [List.map_cons, List.mem_cons, not_or] at hm
    simp only [List.foldl_cons]
    rw [ih _ hm.2, upd_ne _ _ hm.1]

theorem foldl_upd_mem {α : Type} (g : Nat → α) (map : List (Nat × Nat)) (init : Nat → α)
    (hv : (map.map Prod.snd).Nodup) {e : Nat × Nat} (he : e ∈ map) :
    map.foldl (fun a e => upd a e.2 (g e.1)) init e.2 = g e.1 := by
  induction map generalizing init with
  | nil => simp at he
  | cons d map ih =>
    simp only [List.map_cons, List.nodup_cons] at hv
    simp only [List.foldl_cons]
    rcases List.mem_cons.1 he with rfl | he
    · rw [foldl_upd_ne _ _ _ hv.1, upd_same]
    · exact ih _ hv.2 he

theorem foldl_upd_if_ne {α : Type} (c : Nat → Bool) (g : Nat → α) (map : List (Nat × Nat))
    (init : Nat → α) {m : Nat} (hm : m ∉ map.map Prod.snd) :
    map.foldl (fun a e => if c e.1 then a else upd a e.2 (g e.1)) init m = init m := by
  induction map generalizing init with
  | nil => rfl
  | cons e map ih =>
    simp only [List.map_cons, List.mem_cons, not_or] at hm
    simp only [List.foldl_cons]
    rw [ih _ hm.2]
    split
    · rfl
    · rw [upd_ne _ _ hm.1]

theorem foldl_upd_if_mem {α : Type} (c : Nat → Bool) (g : Nat → α) (map : List (Nat × Nat))
    (init : Nat → α) (hv : (map.map Prod.snd).Nodup) {e : Nat × Nat} (he : e ∈ map) :
    map.foldl (fun a e => if c e.1 then a else upd a e.2 (g e.1)) init e.2 =
      if c e.1 then init e.2 else g e.1 := by
  induction map generalizing init with
  | nil => simp at he
  | cons d map ih =>
    simp only [List.map_cons, List.nodup_cons] at hv
    simp only [List.foldl_cons]
    rcases List.mem_cons.1 he with rfl | he'
    · rw [foldl_upd_if_ne _ _ _ _ hv.1]
      split
      · rfl
      · rw [upd_same]
    · rw [ih _ hv.2 he']
      split
      · split
        · rfl
        · have : e.2 ≠ d.2 := by
            intro hc; exact hv.1 (hc ▸ List.mem_map_of_mem (f := Prod.snd) he')
          rw [upd_ne _ _ this]
      · rfl

theorem filterMap_mapLink {map : List (Nat × Nat)} {nodes : List Nat} {f : Nat → Nat}
    (hin : ∀ x ∈ nodes, map.lookup x = some (f x)) (hout : ∀ x, x ∉ nodes → map.lookup x = none)
    (ls : List Link) : ls.filterMap (mapLink map) =
      (ls.filter fun l => l.src ∈ nodes ∧ l.dst ∈ nodes).map (Link.rename f) := by
  induction ls with
  | nil => rfl
  | cons l ls ih =>
    rw [List.filterMap_cons]
    by_cases h1 : l.src ∈ nodes
    · by_cases h2 : l.dst ∈ nodes
      · rw [List.filter_cons_of_pos (by simp [h1, h2])]
        simp only [mapLink, hin _ h1, hin _ h2, List.map_cons, ih]
        rfl
      · rw [List.filter_cons_of_neg (by simp [h2])]
        simp only [mapLink, hin _ h1, hout _ h2, ih]
    · rw [List.filter_cons_of_neg (by simp [h1])]
      simp only [mapLink, hout _ h1, ih]

/-- The graph after insertion, with any operations and metadata that agree with the host on its nodes
and with `other` on the new ones. -/
theorem inserted_of_copy {host other h1 : Hugr Op Meta} (hth : IsTree host) (hlh : LinksOk host)
    (hto : IsTree other) (hlo : LinksOk other) {pairs roots : List (Nat × Nat)}
    (hins : Insertable host other (pairs.map Prod.fst) roots)
    (hall : Allocated host (pairs.map Prod.snd)) (hi : CopyInv host other h1 pairs.reverse)
    (metadata : Nat → Option (List (String × Meta)))
    (hmeta : ∀ m, host.live m = true → metadata m = host.metadata m) :
    let h' : Hugr Op Meta := { h1 with
      hier := host.hier.attachMany (attachments other (pairs.map Prod.fst) roots (nodeMap pairs))
      ops := pairs.reverse.foldl (fun ops e => upd ops e.2 (other.ops e.1)) h1.ops
      metadata := metadata }
    Inserted host other (pairs.map Prod.fst) roots (nodeMap pairs) h' ∧ IsTree h' ∧ LinksOk h' := by
  intro h'
  have hlook : ∀ x ∈ pairs.map Prod.fst, pairs.reverse.lookup x = some (nodeMap pairs x) := by
    intro x hx; rw [lookup_reverse hins.nodup]; exact nodeMap_lookup hx
  have hinj := nodeMap_inj hall.nodup
  have hmem : ∀ x ∈ pairs.map Prod.fst, (x, nodeMap pairs x) ∈ pairs.reverse :=
    fun x hx => mem_of_lookup (hlook x hx)
  have hval : ∀ x ∈ pairs.map Prod.fst, nodeMap pairs x ∈ pairs.map Prod.snd := by
    intro x hx
    exact List.mem_map_of_mem (f := Prod.snd) (List.mem_reverse.1 (hmem x hx))
  have hfresh : ∀ x ∈ pairs.map Prod.fst, host.live (nodeMap pairs x) = false :=
    fun x hx => hall.fresh _ (hval x hx)
  have hsnd : pairs.reverse.map Prod.snd = (pairs.map Prod.snd).reverse := by rw [List.map_reverse]
  have hvals : ∀ m, m ∈ pairs.reverse.map Prod.snd ↔ ∃ x ∈ pairs.map Prod.fst, nodeMap pairs x = m := by
    intro m
    rw [hsnd, List.mem_reverse]
    constructor
    · intro hm
      obtain ⟨e, he, rfl⟩ := List.mem_map.1 hm
      refine ⟨e.1, List.mem_map_of_mem (f := Prod.fst) he, ?_⟩
      unfold nodeMap
      rw [lookup_of_mem hins.nodup (k := e.1) (v := e.2) he]; rfl
    · rintro ⟨x, hx, rfl⟩; exact hval x hx
  have hhost : ∀ m, host.live m = true → m ∉ pairs.reverse.map Prod.snd := by
    intro m hm hc
    obtain ⟨x, hx, rfl⟩ := (hvals m).1 hc
    rw [hfresh x hx] at hm; cases hm
  obtain ⟨a1, a2, a3⟩ := attachments_lookup (f := nodeMap pairs) hins hinj
  obtain ⟨r1, r2⟩ := attachments_reach (f := nodeMap pairs) hth hto hins hinj hfresh
  have ha3 : ∀ m, host.live m = true →
      (attachments other (pairs.map Prod.fst) roots (nodeMap pairs)).lookup m = none := by
    intro m hm
    apply a3
    rintro x hx rfl; rw [hfresh x hx] at hm; cases hm
  -- children: attachments below a host node, and below a new node
  have hchild_host : ∀ m, host.live m = true →
      ((attachments other (pairs.map Prod.fst) roots (nodeMap pairs)).filter fun e => e.2 == m).map
        Prod.fst = (roots.filter fun e => e.2 = m).map fun e => nodeMap pairs e.1 := by
    intro m hm
    unfold attachments
    rw [List.filter_append, List.map_append]
    have h2 : ((((pairs.map Prod.fst).filter fun x => !decide (x ∈ roots.map Prod.fst)).map fun x =>
        (nodeMap pairs x, nodeMap pairs ((other.hier.parent x).getD 0))).filter fun e => e.2 == m) = [] := by
      rw [List.filter_eq_nil_iff]
      intro e he
      obtain ⟨x, hx, rfl⟩ := List.mem_map.1 he
      obtain ⟨hx1, hx2⟩ := List.mem_filter.1 hx
      obtain ⟨q, hq, hxq⟩ := hins.closed x hx1 (by simpa using hx2)
      simp only [hxq, Option.getD_some, beq_iff_eq]
      rintro rfl
      rw [hfresh q hq] at hm; cases hm
    rw [h2, List.filter_map, List.map_map]
    simp only [List.map_nil, List.append_nil]
    rfl
  have hchild_new : ∀ x ∈ pairs.map Prod.fst,
      ((attachments other (pairs.map Prod.fst) roots (nodeMap pairs)).filter
        fun e => e.2 == nodeMap pairs x).map Prod.fst =
      ((pairs.map Prod.fst).filter fun y =>
        y ∉ roots.map Prod.fst ∧ other.hier.parent y = some x).map (nodeMap pairs) := by
    intro x hx
    unfold attachments
    rw [List.filter_append, List.map_append]
    have h2 : ((roots.map fun e => (nodeMap pairs e.1, e.2)).filter
        fun e => e.2 == nodeMap pairs x) = [] := by
      rw [List.filter_eq_nil_iff]
      intro e he
      obtain ⟨r, hr, rfl⟩ := List.mem_map.1 he
      simp only [beq_iff_eq]
      intro hc
      have := (hins.roots_mem r hr).2
      rw [hc, hfresh x hx] at this; cases this
    rw [h2, List.filter_map, List.map_map, List.filter_filter]
    simp only [List.map_nil, List.nil_append]
    congr 1
    apply List.filter_congr
    intro y hy
    simp only [Function.comp_apply]
    by_cases hyr : y ∈ roots.map Prod.fst
    · simp [hyr]
    · obtain ⟨q, hq, hyq⟩ := hins.closed y hy hyr
      simp only [hyr, hyq, Option.getD_some, decide_false, Bool.not_false, Bool.and_true,
        not_false_eq_true, true_and, Option.some.injEq]
      by_cases hqx : q = x
      · simp [hqx]
      · have : nodeMap pairs q ≠ nodeMap pairs x := fun hc => hqx (hinj q hq x hx hc)
        simp [hqx, this]
  have hIns : Inserted host other (pairs.map Prod.fst) roots (nodeMap pairs) h' := by
    refine ⟨hfresh, hinj, ?_, ?_, ?_, ?_, ?_, ?_, ?_, ?_, ?_⟩
    · intro m
      show h1.live m = true ↔ _
      rw [hi.live, hvals]
    · intro m hm
      obtain ⟨g1, g2, g3⟩ := hi.rest m (hhost m hm)
      refine ⟨?_, g1, g2, hmeta m hm, ?_⟩
      · show pairs.reverse.foldl (fun ops e => upd ops e.2 (other.ops e.1)) h1.ops m = _
        rw [foldl_upd_ne _ _ _ (hhost m hm)]; exact g3
      · show (host.hier.attachMany _).parent m = _
        simp only [Hier.attachMany, ha3 m hm]
    · intro m hm
      show host.hier.children m ++ _ = _
      rw [hchild_host m hm]
    · intro x hx
      obtain ⟨g1, g2⟩ := hi.ports _ (hmem x hx)
      refine ⟨?_, g1, g2⟩
      exact foldl_upd_mem other.ops pairs.reverse h1.ops hi.vals (hmem x hx)
    · intro e he
      show (host.hier.attachMany _).parent _ = _
      simp only [Hier.attachMany, a1 e he]
    · intro x hx hxr
      obtain ⟨q, hq, hxq⟩ := hins.closed x hx hxr
      show (host.hier.attachMany _).parent _ = _
      simp only [Hier.attachMany, a2 x hx hxr q hxq, hxq, Option.map_some]
    · intro x hx
      show host.hier.children _ ++ _ = _
      rw [(hth.dead (hfresh x hx)).2, hchild_new x hx]; rfl
    · show h1.links.Perm _
      refine hi.links.trans (List.Perm.of_eq ?_)
      rw [filterMap_mapLink hlook]
      intro x hx
      rw [lookup_none_iff, List.map_reverse, List.mem_reverse]; exact hx
    · exact ⟨hi.same.2.1, hi.same.2.2.1⟩
  refine ⟨hIns, ?_, ?_⟩
  · have hpar : ∀ n p, h'.hier.parent n = some p →
        (∃ x ∈ pairs.map Prod.fst, nodeMap pairs x = n ∧ x ∉ roots.map Prod.fst ∧
          ∃ q ∈ pairs.map Prod.fst, other.hier.parent x = some q ∧ p = nodeMap pairs q) ∨
        (∃ e ∈ roots, nodeMap pairs e.1 = n ∧ e.2 = p) ∨ host.hier.parent n = some p := by
      intro n p hp
      by_cases hx : ∃ x ∈ pairs.map Prod.fst, nodeMap pairs x = n
      · obtain ⟨x, hx, rfl⟩ := hx
        by_cases hxr : x ∈ roots.map Prod.fst
        · obtain ⟨e, he, rfl⟩ := List.mem_map.1 hxr
          have := hIns.root_parent e he
          rw [hp] at this
          cases this
          exact Or.inr (Or.inl ⟨e, he, rfl, rfl⟩)
        · obtain ⟨q, hq, hxq⟩ := hins.closed x hx hxr
          have := hIns.node_parent x hx hxr
          rw [hp, hxq] at this
          cases this
          exact Or.inl ⟨x, hx, rfl, hxr, q, hq, hxq, rfl⟩
      · have hn : ∀ x ∈ pairs.map Prod.fst, nodeMap pairs x ≠ n := fun x hx' hc => hx ⟨x, hx', hc⟩
        have h2 : (host.hier.attachMany
          (attachments other (pairs.map Prod.fst) roots (nodeMap pairs))).parent n = some p := hp
        simp only [Hier.attachMany, a3 n hn] at h2
        exact Or.inr (Or.inr h2)
    refine ⟨?_, ?_, ?_, ?_, ?_, ?_, ?_, ?_, ?_⟩
    · rw [hIns.root_entry.1]; exact (hIns.live _).2 (Or.inl hth.root_live)
    · rw [hIns.root_entry.2]; exact (hIns.live _).2 (Or.inl hth.entry_live)
    · rw [hIns.root_entry.1, (hIns.host_node _ hth.root_live).2.2.2.2]; exact hth.root_top
    · intro n hn hne
      rw [hIns.root_entry.1] at hne
      rcases (hIns.live n).1 hn with hn | ⟨x, hx, rfl⟩
      · rw [(hIns.host_node _ hn).2.2.2.2]; exact hth.has_parent n hn hne
      · by_cases hxr : x ∈ roots.map Prod.fst
        · obtain ⟨e, he, rfl⟩ := List.mem_map.1 hxr
          exact ⟨_, hIns.root_parent e he⟩
        · obtain ⟨q, hq, hxq⟩ := hins.closed x hx hxr
          exact ⟨nodeMap pairs q, by rw [hIns.node_parent x hx hxr, hxq]; rfl⟩
    · intro n p hp
      rcases hpar n p hp with ⟨x, hx, rfl, _, q, hq, _, rfl⟩ | ⟨e, he, rfl, rfl⟩ | hp
      · exact ⟨(hIns.live _).2 (Or.inr ⟨x, hx, rfl⟩), (hIns.live _).2 (Or.inr ⟨q, hq, rfl⟩)⟩
      · obtain ⟨g1, g2⟩ := hins.roots_mem e he
        exact ⟨(hIns.live _).2 (Or.inr ⟨_, g1, rfl⟩), (hIns.live _).2 (Or.inl g2)⟩
      · obtain ⟨g1, g2⟩ := hth.parent_live n p hp
        exact ⟨(hIns.live _).2 (Or.inl g1), (hIns.live _).2 (Or.inl g2)⟩
    · intro p n
      constructor
      · intro hc
        have hc' : n ∈ host.hier.children p ++ _ := hc
        rcases List.mem_append.1 hc' with hc' | hc'
        · have hp := (hth.child_iff p n).1 hc'
          rw [(hIns.host_node n (hth.parent_live n p hp).1).2.2.2.2]; exact hp
        · obtain ⟨e, he, rfl⟩ := List.mem_map.1 hc'
          obtain ⟨he1, he2⟩ := List.mem_filter.1 he
          rw [beq_iff_eq] at he2
          show (host.hier.attachMany _).parent _ = _
          simp only [Hier.attachMany]
          rw [lookup_of_mem (attachments_nodup hins hinj) (k := e.1) (v := e.2) he1, he2]
      · intro hp
        rcases hpar n p hp with ⟨x, hx, rfl, hxr, q, hq, hxq, rfl⟩ | ⟨e, he, rfl, rfl⟩ | hp
        · rw [hIns.node_children q hq]
          refine List.mem_map.2 ⟨x, ?_, rfl⟩
          rw [List.mem_filter]; exact ⟨hx, by simp only [hxr, hxq]; simp⟩
        · rw [hIns.host_children _ (hins.roots_mem e he).2]
          refine List.mem_append.2 (Or.inr (List.mem_map.2 ⟨e, ?_, rfl⟩))
          rw [List.mem_filter]; exact ⟨he, by simp⟩
        · rw [hIns.host_children _ (hth.parent_live n p hp).2]
          exact List.mem_append.2 (Or.inl ((hth.child_iff p n).2 hp))
    · intro p
      show (host.hier.children p ++ _).Nodup
      rw [List.nodup_append]
      refine ⟨hth.child_once p, ?_, ?_⟩
      · have := attachments_nodup (f := nodeMap pairs) hins hinj
        exact this.sublist (List.filter_sublist.map _)
      · rintro a ha b hb rfl
        have hp := (hth.child_iff p a).1 ha
        have hl := (hth.parent_live a p hp).1
        obtain ⟨e, he, rfl⟩ := List.mem_map.1 hb
        have := ha3 _ hl
        rw [lookup_none_iff] at this
        exact this (List.mem_map_of_mem (f := Prod.fst) (List.mem_filter.1 he).1)
    · intro n hn
      rw [hIns.root_entry.1]
      rcases (hIns.live n).1 hn with hn | ⟨x, hx, rfl⟩
      · exact r1 n hn
      · exact r2 x hx
    · intro n hn
      show n < h1.cap
      rcases (hIns.live n).1 hn with hn | ⟨x, hx, rfl⟩
      · have := hth.in_range n hn; have := hi.cap.1; omega
      · exact hi.cap.2 _ ((hvals _).2 ⟨x, hx, rfl⟩)
  · have := hi.linksOk hlh hlo
    exact linksOk_congr this rfl rfl rfl rfl

/-! ## C23 -/

theorem zip_fst {nodes news : List Nat} (h : news.length = nodes.length) :
    (nodes.zip news).map Prod.fst = nodes := List.map_fst_zip (by omega)

theorem zip_snd {nodes news : List Nat} (h : news.length = nodes.length) :
    (nodes.zip news).map Prod.snd = news := List.map_snd_zip (by omega)

/-- **C45** (partial) Copying a forest of nodes from a view: the result is the host with a copy of the
nodes, and is a tree again. Metadata of a copied node is that of the original if it has any; if it has
none, metadata left behind at the index by a removed node of the host stays: the full statement is
refuted by `C45_stale_metadata_refuted`. -/
theorem C45_insert_view_forest_partial (I : OpInfo Op) (host other : Hugr Op Meta) (hth : IsTree host)
    (hlh : LinksOk host) (hto : IsTree other) (hlo : LinksOk other) (nodes news : List Nat)
    (roots : List (Nat × Nat)) (hlen : news.length = nodes.length)
    (hins : Insertable host other nodes roots) (hall : Allocated host news) :
    ∃ h' map f, host.insertViewForest I other (nodes.zip news) roots = .done h' map ∧
      (∀ x ∈ nodes, map.lookup x = some (f x)) ∧ Inserted host other nodes roots f h' ∧
      IsTree h' ∧ LinksOk h' ∧
      ∀ x ∈ nodes, h'.metadata (f x) =
        if (other.metadata x).getD [] = [] then host.metadata (f x) else other.metadata x := by
  have e1 := zip_fst hlen
  have e2 := zip_snd hlen
  generalize nodes.zip news = pairs at e1 e2
  subst e1 e2
  obtain ⟨h1, hr, hi⟩ := insertInternal_spec I hth hlh hto hlo hins hall
  have hkeep : ∀ m, m ∉ pairs.reverse.map Prod.snd →
      pairs.reverse.foldl (fun m e => if ((other.metadata e.1).getD []).isEmpty then m
        else upd m e.2 (some ((other.metadata e.1).getD []))) h1.metadata m = host.metadata m := by
    intro m hm
    rw [foldl_upd_if_ne (fun x => ((other.metadata x).getD []).isEmpty)
      (fun x => some ((other.metadata x).getD [])) _ _ hm, hi.same.2.2.2]
  obtain ⟨q1, q2, q3⟩ := inserted_of_copy hth hlh hto hlo hins hall hi
    (pairs.reverse.foldl (fun m e => if ((other.metadata e.1).getD []).isEmpty then m
        else upd m e.2 (some ((other.metadata e.1).getD []))) h1.metadata)
    (by
      intro m hm
      apply hkeep
      intro hc
      rw [List.map_reverse, List.mem_reverse] at hc
      rw [hall.fresh m hc] at hm; cases hm)
  refine ⟨_, pairs.reverse, nodeMap pairs, ?_, ?_, q1, q2, q3, ?_⟩
  · unfold Hugr.insertViewForest
    rw [hr]
  · intro x hx; rw [lookup_reverse hins.nodup]; exact nodeMap_lookup hx
  · intro x hx
    have hmem : (x, nodeMap pairs x) ∈ pairs.reverse := by
      apply mem_of_lookup; rw [lookup_reverse hins.nodup]; exact nodeMap_lookup hx
    have := foldl_upd_if_mem (fun x => ((other.metadata x).getD []).isEmpty)
      (fun x => some ((other.metadata x).getD [])) pairs.reverse h1.metadata hi.vals hmem
    simp only [] at this ⊢
    rw [this, hi.same.2.2.2]
    cases hm : other.metadata x with
    | none => simp
    | some l => cases l <;> simp

/-- No node to be inserted lies below two of the roots. -/
def Disjoint (other : Hugr Op Meta) (roots : List (Nat × Nat)) : Prop :=
  ∀ e ∈ roots, ∀ d ∈ roots, Above other.hier.parent e.1 d.1 → e.1 = d.1

theorem forest_insertable {host other : Hugr Op Meta} (hto : IsTree other) {roots : List (Nat × Nat)}
    (hnd : (roots.map Prod.fst).Nodup)
    (hlive : ∀ e ∈ roots, other.live e.1 = true ∧ host.live e.2 = true)
    (hdis : Disjoint other roots) :
    Insertable host other (roots.flatMap fun r => other.descendants r.1) roots := by
  have hen : ∀ e ∈ roots, Enumerates other e.1 (other.descendants e.1) :=
    fun e he => descendants_enumerates hto (hlive e he).1
  refine ⟨?_, ?_, hnd, ?_, ?_⟩
  · intro x hx
    obtain ⟨e, he, hx⟩ := List.mem_flatMap.1 hx
    have := ((hen e he).mem x).1 hx
    cases this with
    | refl => exact (hlive e he).1
    | step hp _ => exact (hto.parent_live _ _ hp).1
  · rw [List.nodup_flatMap]
    refine ⟨fun e he => (hen e he).nodup, ?_⟩
    rw [List.Nodup, List.pairwise_map] at hnd
    refine hnd.imp_of_mem ?_
    intro a b ha hb hne x hxa hxb
    have h1 := ((hen a ha).mem x).1 hxa
    have h2 := ((hen b hb).mem x).1 hxb
    rcases h1.total h2 with h3 | h3
    · exact hne (hdis a ha b hb h3)
    · exact hne (hdis b hb a ha h3).symm
  · intro e he
    refine ⟨List.mem_flatMap.2 ⟨e, he, ((hen e he).mem _).2 (.refl _)⟩, (hlive e he).2⟩
  · intro x hx hxr
    obtain ⟨e, he, hxe⟩ := List.mem_flatMap.1 hx
    have := ((hen e he).mem x).1 hxe
    cases this with
    | refl => exact absurd (List.mem_map_of_mem (f := Prod.fst) he) hxr
    | @step _ q _ hp hq => exact ⟨q, List.mem_flatMap.2 ⟨e, he, ((hen e he).mem q).2 hq⟩, hp⟩

theorem flatMap_only {α β : Type} {l : List α} {f : α → List β} {a : α} (ha : a ∈ l) (hnd : l.Nodup)
    (hne : ∀ b ∈ l, b ≠ a → f b = []) : l.flatMap f = f a := by
  induction l with
  | nil => simp at ha
  | cons x l ih =>
    rw [List.nodup_cons] at hnd
    rw [List.flatMap_cons]
    by_cases hx : x = a
    · subst hx
      have : l.flatMap f = [] := by
        rw [List.flatMap_eq_nil_iff]
        intro b hb
        exact hne b (List.mem_cons_of_mem _ hb) (fun hc => hnd.1 (hc ▸ hb))
      rw [this, List.append_nil]
    · rw [hne x (by simp) hx, List.nil_append]
      exact ih (by rcases List.mem_cons.1 ha with h | h; exact absurd h.symm hx; exact h) hnd.2
        fun b hb => hne b (List.mem_cons_of_mem _ hb)

/-- The nodes of a forest keep their children, in order. -/
theorem forest_children {host other : Hugr Op Meta} (hto : IsTree other) {roots : List (Nat × Nat)}
    (hnd : (roots.map Prod.fst).Nodup)
    (hlive : ∀ e ∈ roots, other.live e.1 = true ∧ host.live e.2 = true)
    (hdis : Disjoint other roots) {x : Nat}
    (hx : x ∈ roots.flatMap fun r => other.descendants r.1) :
    ((roots.flatMap fun r => other.descendants r.1).filter fun y =>
      y ∉ roots.map Prod.fst ∧ other.hier.parent y = some x) = other.hier.children x := by
  have hen : ∀ e ∈ roots, Enumerates other e.1 (other.descendants e.1) :=
    fun e he => descendants_enumerates hto (hlive e he).1
  obtain ⟨e, he, hxe⟩ := List.mem_flatMap.1 hx
  have hxa := ((hen e he).mem x).1 hxe
  rw [List.filter_flatMap]
  rw [flatMap_only he (List.Nodup.of_map _ hnd)]
  · rw [← (hen e he).siblings x hxe]
    apply List.filter_congr
    intro y hy
    simp only [decide_eq_decide]
    constructor
    · rintro ⟨h1, h2⟩
      exact ⟨fun hc => h1 (hc ▸ List.mem_map_of_mem (f := Prod.fst) he), h2⟩
    · rintro ⟨h1, h2⟩
      refine ⟨?_, h2⟩
      intro hc
      obtain ⟨d, hd, rfl⟩ := List.mem_map.1 hc
      exact h1 (hdis d hd e he (((hen e he).mem _).1 hy))
  · intro d hd hde
    rw [List.filter_eq_nil_iff]
    intro y hy
    simp only [decide_eq_true_eq, not_and]
    intro hyr hyx
    have h1 := ((hen d hd).mem y).1 hy
    cases h1 with
    | refl => exact hyr (List.mem_map_of_mem (f := Prod.fst) hd)
    | step hp h2 =>
      rw [hyx] at hp; cases hp
      have h3 : d.1 = e.1 := by
        rcases h2.total hxa with h3 | h3
        · exact hdis d hd e he h3
        · exact (hdis e he d hd h3).symm
      exact hde (List.inj_on_of_nodup_map hnd hd he h3)

theorem any_or {α : Type} (l : List α) (a b : α → Bool) :
    (l.any fun x => a x || b x) = (l.any a || l.any b) := by
  induction l with
  | nil => rfl
  | cons x l ih =>
    simp only [List.any_cons, ih]
    cases a x <;> cases b x <;> cases l.any a <;> cases l.any b <;> rfl

theorem belowRoot_eq {other : Hugr Op Meta} (hto : IsTree other) (roots : List (Nat × Nat))
    (fuel n : Nat) : belowRoot other roots (fuel + 1) n = match other.hier.parent n with
      | none => false
      | some p => roots.any fun r => other.hier.onPath fuel p r.1 := by
  have hg : ∀ m, other.getParent m = other.hier.parent m := by
    intro m
    unfold Hugr.getParent
    split
    · rfl
    · rename_i hc
      cases hp : other.hier.parent m with
      | none => rfl
      | some p =>
        exfalso; apply hc
        have h1 := (hto.parent_live m p hp).1
        have h2 : m ≠ other.moduleRoot := by
          rintro rfl; rw [hto.root_top] at hp; cases hp
        simp [h1, h2]
  have hlook : ∀ p, (roots.lookup p).isSome = roots.any fun r => p == r.1 := by
    intro p
    induction roots with
    | nil => rfl
    | cons e roots ih =>
      rw [List.lookup_cons, List.any_cons]
      by_cases hp : p = e.1
      · have : (p == e.1) = true := by simpa using hp
        rw [this]; simp
      · have : (p == e.1) = false := by simpa using hp
        rw [this]; simpa using ih
  induction fuel generalizing n with
  | zero =>
    simp only [belowRoot, hg, Hier.onPath, Bool.or_false]
    cases other.hier.parent n with
    | none => rfl
    | some p => exact hlook p
  | succ fuel ih =>
    rw [belowRoot, hg]
    cases other.hier.parent n with
    | none => rfl
    | some p =>
      simp only [hlook]
      rw [ih p]
      simp only [Hier.onPath]
      cases other.hier.parent p with
      | none => simp
      | some q =>
        exact (any_or _ _ _).symm

/-- **C23** Inserting a forest: if the regions are disjoint, the result is the host with a copy of
them, each node with its children in order and its metadata, and is a tree again; else it is refused
and the host is not changed. -/
theorem C23_insert_forest (I : OpInfo Op) (host other : Hugr Op Meta) (hth : IsTree host)
    (hlh : LinksOk host) (hto : IsTree other) (hlo : LinksOk other) (roots : List (Nat × Nat))
    (news : List Nat) (hnd : (roots.map Prod.fst).Nodup)
    (hlive : ∀ e ∈ roots, other.live e.1 = true ∧ host.live e.2 = true)
    (hlen : news.length = (roots.flatMap fun r => other.descendants r.1).length)
    (hall : Allocated host news) :
    (Disjoint other roots →
      ∃ h' map f, host.insertForest I other roots news = .done h' map ∧
        (∀ x, (∃ e ∈ roots, Above other.hier.parent x e.1) → map.lookup x = some (f x)) ∧
        Inserted host other (roots.flatMap fun r => other.descendants r.1) roots f h' ∧
        IsTree h' ∧ LinksOk h' ∧
        ∀ x, (∃ e ∈ roots, Above other.hier.parent x e.1) →
          h'.metadata (f x) = other.metadata x ∧
          h'.hier.children (f x) = (other.hier.children x).map f) ∧
    (¬ Disjoint other roots → host.insertForest I other roots news = .alreadyCopied host) := by
  have hbelow : (roots.any fun r => belowRoot other roots (other.cap + 1) r.1) = false ↔
      Disjoint other roots := by
    have key : ∀ n, belowRoot other roots (other.cap + 1) n = true ↔
        ∃ p, other.hier.parent n = some p ∧ ∃ r ∈ roots, Above other.hier.parent p r.1 := by
      intro n
      rw [belowRoot_eq hto]
      cases other.hier.parent n with
      | none => simp
      | some p =>
        simp only [List.any_eq_true, Option.some.injEq, exists_eq_left']
        constructor
        · rintro ⟨r, hr, ha⟩; exact ⟨r, hr, onPath_above ha⟩
        · rintro ⟨r, hr, ha⟩; exact ⟨r, hr, (onPath_iff hto.acyclic hto.bounded p r.1).2 ha⟩
    constructor
    · intro h e he d hd ha
      by_cases hed : e.1 = d.1
      · exact hed
      · exfalso
        obtain ⟨p, hp, ha⟩ : ∃ p, other.hier.parent e.1 = some p ∧ Above other.hier.parent p d.1 := by
          generalize e.1 = a at ha hed
          cases ha with
          | refl => exact absurd rfl hed
          | step hp ha => exact ⟨_, hp, ha⟩
        have h1 : belowRoot other roots (other.cap + 1) e.1 = true := (key e.1).2 ⟨_, hp, d, hd, ha⟩
        have h2 : (roots.any fun r => belowRoot other roots (other.cap + 1) r.1) = true :=
          List.any_eq_true.2 ⟨e, he, h1⟩
        rw [h] at h2; cases h2
    · intro h
      rw [Bool.eq_false_iff]
      intro hc
      obtain ⟨e, he, h1⟩ := List.any_eq_true.1 hc
      obtain ⟨p, hp, d, hd, ha⟩ := (key e.1).1 h1
      have := h e he d hd (.step hp ha)
      rw [← this] at ha
      exact hto.acyclic _ _ hp ha
  constructor
  · intro hdis
    have hins : Insertable host other (roots.flatMap fun r => other.descendants r.1) roots :=
      forest_insertable hto hnd hlive hdis
    have hch := fun x hx => forest_children (x := x) hto hnd hlive hdis hx
    have hmemn : ∀ x, (∃ e ∈ roots, Above other.hier.parent x e.1) →
        x ∈ roots.flatMap fun r => other.descendants r.1 := by
      rintro x ⟨e, he, ha⟩
      exact List.mem_flatMap.2 ⟨e, he, ((descendants_enumerates hto (hlive e he).1).mem x).2 ha⟩
    unfold Hugr.insertForest
    rw [hbelow.2 hdis]
    simp only [Bool.false_eq_true, if_false]
    generalize (roots.flatMap fun r => other.descendants r.1) = nodes at hins hch hlen hmemn
    have e1 := zip_fst hlen
    have e2 := zip_snd hlen
    generalize nodes.zip news = pairs at e1 e2
    subst e1 e2
    obtain ⟨h1, hr, hi⟩ := insertInternal_spec I hth hlh hto hlo hins hall
    obtain ⟨q1, q2, q3⟩ := inserted_of_copy hth hlh hto hlo hins hall hi
      (pairs.reverse.foldl (fun m e => upd m e.2 (other.metadata e.1)) h1.metadata)
      (by
        intro m hm
        rw [foldl_upd_ne, hi.same.2.2.2]
        intro hc
        rw [List.map_reverse, List.mem_reverse] at hc
        rw [hall.fresh m hc] at hm; cases hm)
    refine ⟨_, pairs.reverse, nodeMap pairs, ?_, ?_, q1, q2, q3, ?_⟩
    · rw [hr]
    · intro x hx; rw [lookup_reverse hins.nodup]; exact nodeMap_lookup (hmemn x hx)
    · intro x hx
      have hx := hmemn x hx
      have hmem : (x, nodeMap pairs x) ∈ pairs.reverse := by
        apply mem_of_lookup; rw [lookup_reverse hins.nodup]; exact nodeMap_lookup hx
      refine ⟨foldl_upd_mem other.metadata pairs.reverse h1.metadata hi.vals hmem, ?_⟩
      rw [q1.node_children x hx, hch x hx]
  · intro hdis
    unfold Hugr.insertForest
    rw [if_pos]
    cases h : roots.any fun r => belowRoot other roots (other.cap + 1) r.1 with
    | true => rfl
    | false => exact absurd (hbelow.1 h) hdis

/-- **C23** `insert_hugr` (and `insert_region`): the subtree of `region` is copied below `root`, as its
last child, with operations, ports, metadata, children in order, and the links within it; nothing
else of the host changes. -/
theorem C23_insert_hugr (I : OpInfo Op) (host other : Hugr Op Meta) (hth : IsTree host)
    (hlh : LinksOk host) (hto : IsTree other) (hlo : LinksOk other) (root region : Nat)
    (news : List Nat) (hroot : host.live root = true) (hregion : other.live region = true)
    (hlen : news.length = (other.descendants region).length) (hall : Allocated host news) :
    ∃ h' map f, host.insertRegion I root other region news = .done h' map ∧
      (∀ x, Above other.hier.parent x region → map.lookup x = some (f x)) ∧
      Inserted host other (other.descendants region) [(region, root)] f h' ∧
      IsTree h' ∧ LinksOk h' ∧
      ∀ x, Above other.hier.parent x region →
        h'.metadata (f x) = other.metadata x ∧
        h'.hier.children (f x) = (other.hier.children x).map f := by
  have := (C23_insert_forest I host other hth hlh hto hlo [(region, root)] news (by simp)
    (by simp [hroot, hregion]) (by simpa using hlen) hall).1
    (by intro e he d hd _; simp only [List.mem_singleton] at he hd; rw [he, hd])
  simpa [Hugr.insertRegion] using this

/-- **C45** (partial) `insert_from_view`: the same for the entrypoint of a view, except that a copied
node without metadata keeps what was left at its index (`C45_stale_metadata_refuted`). -/
theorem C45_insert_from_view_partial (I : OpInfo Op) (host other : Hugr Op Meta) (hth : IsTree host)
    (hlh : LinksOk host) (hto : IsTree other) (hlo : LinksOk other) (root : Nat)
    (news : List Nat) (hroot : host.live root = true)
    (hlen : news.length = (other.descendants other.entrypoint).length) (hall : Allocated host news) :
    ∃ h' map f, host.insertFromView I root other news = .done h' map ∧
      (∀ x, Above other.hier.parent x other.entrypoint → map.lookup x = some (f x)) ∧
      Inserted host other (other.descendants other.entrypoint) [(other.entrypoint, root)] f h' ∧
      IsTree h' ∧ LinksOk h' ∧
      ∀ x, Above other.hier.parent x other.entrypoint →
        h'.metadata (f x) =
          (if (other.metadata x).getD [] = [] then host.metadata (f x) else other.metadata x) ∧
        h'.hier.children (f x) = (other.hier.children x).map f := by
  have hdis : Disjoint other [(other.entrypoint, root)] := by
    intro e he d hd _; simp only [List.mem_singleton] at he hd; rw [he, hd]
  have hlive : ∀ e ∈ [(other.entrypoint, root)], other.live e.1 = true ∧ host.live e.2 = true := by
    simp [hroot, hto.entry_live]
  have hins : Insertable host other (other.descendants other.entrypoint) [(other.entrypoint, root)] := by
    have := forest_insertable (host := host) hto (roots := [(other.entrypoint, root)]) (by simp) hlive hdis
    simpa using this
  have hen := descendants_enumerates hto hto.entry_live
  obtain ⟨h', map, f, h1, h2, h3, h4, h5, h6⟩ := C45_insert_view_forest_partial I host other hth hlh
    hto hlo _ news _ hlen hins hall
  refine ⟨h', map, f, h1, fun x hx => h2 x ((hen.mem x).2 hx), h3, h4, h5, ?_⟩
  intro x hx
  have hx' := (hen.mem x).2 hx
  refine ⟨h6 x hx', ?_⟩
  rw [h3.node_children x hx']
  have := forest_children (host := host) hto (roots := [(other.entrypoint, root)]) (by simp) hlive hdis
    (x := x) (by simpa using hx')
  rw [← this]
  simp

/-- A host, with a removed node whose index is reused. -/
def hostHistory : List (Cmd Nat String) :=
  [ .addNodeWithParent 1 0 1, .addNodeWithParent 2 0 2, .connect ⟨1, 0, 2, 1⟩,
    .setMetadata 1 "name" "one", .removeNode 1 ]

/-- A graph to insert: the entrypoint has two children with a link between them, a loop, and a link
from outside the entrypoint. -/
def otherHistory : List (Cmd Nat String) :=
  [ .addNodeWithParent 1 0 3, .addNodeWithParent 2 1 2, .addNodeBefore 3 2 2, .connect ⟨3, 1, 2, 0⟩,
    .connect ⟨2, 1, 2, 1⟩, .addNodeWithParent 4 0 1, .connect ⟨4, 0, 2, 0⟩,
    .setMetadata 2 "k" "v", .setEntrypoint 1 ]

/-- Host and inserted graph of the examples. -/
def demoPair : Option (Hugr Nat String × Hugr Nat String) :=
  match run demoInfo (Hugr.new demoInfo 0) hostHistory, run demoInfo (Hugr.new demoInfo 0) otherHistory with
  | some h, some o => some (h, o)
  | _, _ => none

/-- `C20_tree_partial` gives the hypotheses of the theorems for these graphs. -/
example : AllDocumented demoInfo (Hugr.new demoInfo 0) hostHistory ∧
    AllDocumented demoInfo (Hugr.new demoInfo 0) otherHistory := by decide +kernel

/-- The host, after inserting: nodes, children of the copied entrypoint, links, operations. -/
example : demoPair.map (fun d => match d.1.insertRegion demoInfo 2 d.2 1 [1, 5, 3] with
      | .done h map => some (h.nodes, h.children 2, h.children 1, h.links, h.nodes.map h.ops, map,
          h.metadata 1, h.metadata 3)
      | _ => none) =
    some (some ([0, 1, 2, 3, 5], [1], [5, 3], [⟨5, 1, 3, 0⟩, ⟨3, 1, 3, 1⟩], [0, 3, 2, 2, 2],
      [(2, 3), (3, 5), (1, 1)], none, some [("k", "v")])) := by rfl

/-- Regions that overlap are refused. -/
example : demoPair.map (fun d => match d.1.insertForest demoInfo d.2 [(1, 2), (3, 0)] [1, 5, 3, 4] with
      | .alreadyCopied _ => true
      | _ => false) = some true := by rfl

/-- **C45** Finding: a node copied from a view that has no metadata shows the metadata of the removed
node whose index it got. -/
theorem C45_stale_metadata_refuted :
    ∃ (host other h' : Hugr Nat String) (map : List (Nat × Nat)), demoPair = some (host, other) ∧
      IsTree host ∧ LinksOk host ∧ IsTree other ∧ LinksOk other ∧ Allocated host [1, 5, 3] ∧
      host.insertFromView demoInfo 2 other [1, 5, 3] = .done h' map ∧ map.lookup 1 = some 1 ∧
      other.getMetadata 1 "name" = some none ∧ h'.getMetadata 1 "name" = some (some "one") := by
  have h1 := C20_tree_partial demoInfo 0 hostHistory _ rfl (by decide +kernel)
  have h2 := C20_tree_partial demoInfo 0 otherHistory _ rfl (by decide +kernel)
  refine ⟨_, _, _, _, rfl, h1.1, h1.2, h2.1, h2.2, ⟨by decide, by decide +kernel⟩, rfl, ?_⟩
  decide +kernel

/-- **C45** Finding: when `insert_view_forest` refuses a node given twice, the nodes it had added by
then stay in the host, without parent: the host is not a tree any more. -/
theorem C45_duplicate_refuted :
    ∃ (host other h' : Hugr Nat String), demoPair = some (host, other) ∧ IsTree host ∧
      host.insertViewForest demoInfo other [(2, 7), (2, 8)] [(2, 0)] = .duplicate h' ∧
      h'.live 7 = true ∧ ¬ IsTree h' := by
  have h1 := C20_tree_partial demoInfo 0 hostHistory _ rfl (by decide +kernel)
  refine ⟨_, _, _, rfl, h1.1, rfl, by decide +kernel, ?_⟩
  intro ht
  obtain ⟨p, hp⟩ := ht.has_parent 7 (by decide +kernel) (by decide +kernel)
  revert hp
  have : ∀ (o : Option Nat), o = none → o = some p → False := by
    intro o h1 h2; rw [h1] at h2; cases h2
  exact this _ (by decide +kernel)

/-- **C45** Finding: "nodes which are not mentioned in `root_parents` and whose parent is not in
`nodes` will have no parent": the call panics instead. -/
theorem C45_no_parent_panics :
    ∃ (host other : Hugr Nat String), demoPair = some (host, other) ∧
      other.live 3 = true ∧ other.hier.parent 3 = some 1 ∧
      host.insertViewForest demoInfo other [(3, 7)] [] = .panic :=
  ⟨_, _, rfl, by decide +kernel, by decide +kernel, rfl⟩

end Verif.Graph
