import Verif.Graph.LinkingSpec
import Verif.Graph.InsertProps

/-!
# Linking: checking the directives
-/
namespace Verif.Graph

variable {Op Meta : Type}

theorem getParent_eq {h : Hugr Op Meta} (ht : IsTree h) (m : Nat) : h.getParent m = h.hier.parent m := by
  unfold Hugr.getParent
  split
  · rfl
  · rename_i hc
    cases hp : h.hier.parent m with
    | none => rfl
    | some p =>
      exfalso; apply hc
      have h1 := (ht.parent_live m p hp).1
      have h2 : m ≠ h.moduleRoot := by
        rintro rfl; rw [ht.root_top] at hp; cases hp
      simp [h1, h2]

theorem replacements_cons (c : Nat × Directive) (children : List (Nat × Directive)) :
    replacements (c :: children) = replacements [c] ++ replacements children := by
  simp [replacements]

theorem uses_cons (c : Nat × Directive) (children : List (Nat × Directive)) :
    uses (c :: children) = uses [c] ++ uses children := by
  simp [uses]

theorem mem_replacements {children : List (Nat × Directive)} {e : Nat × Nat} :
    e ∈ replacements children ↔ ∃ rs, (e.2, .add rs) ∈ children ∧ e.1 ∈ rs := by
  unfold replacements
  rw [List.mem_flatMap]
  constructor
  · rintro ⟨⟨n, d⟩, hc, he⟩
    cases d with
    | add rs =>
      simp only [List.mem_map] at he
      obtain ⟨r, hr, rfl⟩ := he
      exact ⟨rs, hc, hr⟩
    | useExisting tn => simp at he
  · rintro ⟨rs, hc, he⟩
    exact ⟨(e.2, .add rs), hc, by simp only [List.mem_map]; exact ⟨e.1, he, rfl⟩⟩

theorem mem_uses {children : List (Nat × Directive)} {e : Nat × Nat} :
    e ∈ uses children ↔ (e.1, .useExisting e.2) ∈ children := by
  unfold uses
  rw [List.mem_flatMap]
  constructor
  · rintro ⟨⟨n, d⟩, hc, he⟩
    cases d with
    | add rs => simp at he
    | useExisting tn =>
      simp only [List.mem_singleton] at he
      subst he
      exact hc
  · intro hc
    exact ⟨_, hc, by simp⟩

theorem addReplaces_spec (sn : Nat) (rs : List Nat) (rep : List (Nat × Nat)) :
    match addReplaces sn rs rep with
    | .ok rep' => rep' = (rs.map fun r => (r, sn)).reverse ++ rep ∧
        ((rep.map Prod.fst).Nodup → (rep'.map Prod.fst).Nodup)
    | .error e => ∃ r old, e = .nodeMultiplyReplaced r old sn ∧ r ∈ rs ∧
        (r, old) ∈ (rs.map fun r => (r, sn)).reverse ++ rep ∧
        ¬ (((rs.map fun r => (r, sn)).reverse ++ rep).map Prod.fst).Nodup := by
  induction rs generalizing rep with
  | nil => exact ⟨rfl, id⟩
  | cons r rs ih =>
    rw [addReplaces]
    cases hl : rep.lookup r with
    | some old =>
      refine ⟨r, old, rfl, by simp, List.mem_append_right _ (mem_of_lookup hl), ?_⟩
      intro hn
      have hm : r ∈ rep.map Prod.fst := List.mem_map_of_mem (f := Prod.fst) (mem_of_lookup hl)
      simp only [List.map_cons, List.reverse_cons, List.append_assoc, List.map_append,
        List.map_nil] at hn
      have := (List.nodup_append.1 hn).2.1
      simp only [List.cons_append, List.nil_append] at this
      rw [List.nodup_cons] at this
      exact this.1 hm
    | none =>
      have := ih ((r, sn) :: rep)
      simp only []
      cases h : addReplaces sn rs ((r, sn) :: rep) with
      | ok rep' =>
        rw [h] at this
        refine ⟨by rw [this.1]; simp, fun hn => this.2 ?_⟩
        rw [List.map_cons, List.nodup_cons]
        exact ⟨lookup_none_iff.1 hl, hn⟩
      | error e =>
        rw [h] at this
        obtain ⟨r', old, h1, h2, h3, h4⟩ := this
        refine ⟨r', old, h1, by simp [h2], ?_, ?_⟩
        · simpa using h3
        · simpa using h4

theorem collectTransfers_spec {other : Hugr Op Meta} (ht : IsTree other)
    (children : List (Nat × Directive)) (t : Transfers) :
    match collectTransfers other children t with
    | .ok t' => (∀ c ∈ children, other.hier.parent c.1 = some other.moduleRoot) ∧
        t'.useExisting.Perm (t.useExisting ++ uses children) ∧
        t'.replace.Perm (t.replace ++ replacements children) ∧
        ((t.replace.map Prod.fst).Nodup → (t'.replace.map Prod.fst).Nodup)
    | .error e => (∃ sn ∈ children.map Prod.fst, e = .notChildOfRoot sn ∧
          other.hier.parent sn ≠ some other.moduleRoot) ∨
        ∃ tn old sn, e = .nodeMultiplyReplaced tn old sn ∧ (tn, sn) ∈ replacements children ∧
          (tn, old) ∈ t.replace ++ replacements children ∧
          ¬ ((t.replace ++ replacements children).map Prod.fst).Nodup := by
  induction children generalizing t with
  | nil => exact ⟨by simp, by simp [uses], by simp [replacements], id⟩
  | cons c rest ih =>
    obtain ⟨sn, d⟩ := c
    rw [collectTransfers.eq_def]
    simp only [getParent_eq ht]
    by_cases hp : other.hier.parent sn = some other.moduleRoot
    · rw [if_pos hp]
      cases d with
      | useExisting tn =>
        simp only []
        have := ih { t with useExisting := (sn, tn) :: t.useExisting }
        have hu : uses ((sn, .useExisting tn) :: rest) = (sn, tn) :: uses rest := by simp [uses]
        have hr : replacements ((sn, .useExisting tn) :: rest) = replacements rest := by
          simp [replacements]
        rw [hu, hr]
        split at this
        · obtain ⟨h1, h2, h3, h4⟩ := this
          refine ⟨?_, ?_, h3, h4⟩
          · intro c hc
            rcases List.mem_cons.1 hc with rfl | hc'
            · exact hp
            · exact h1 c hc'
          · exact h2.trans (by simpa using (List.perm_middle (a := (sn, tn)) (l₁ := t.useExisting)).symm)
        · rcases this with ⟨sn', h1, h2⟩ | this
          · exact .inl ⟨sn', List.mem_cons_of_mem _ h1, h2⟩
          · exact .inr this
      | add rs =>
        simp only []
        have hu : uses ((sn, .add rs) :: rest) = uses rest := by simp [uses]
        have hr : replacements ((sn, .add rs) :: rest) = rs.map (fun r => (r, sn)) ++ replacements rest := by
          simp [replacements]
        rw [hu, hr]
        have ha := addReplaces_spec sn rs t.replace
        have hperm : ∀ X : List (Nat × Nat), ((rs.map fun r => (r, sn)).reverse ++ t.replace ++ X).Perm
            (t.replace ++ (rs.map (fun r => (r, sn)) ++ X)) := by
          intro X
          rw [← List.append_assoc]
          exact (((List.reverse_perm _).append_right _).trans List.perm_append_comm).append_right _
        cases h : addReplaces sn rs t.replace with
        | error e =>
          rw [h] at ha
          obtain ⟨r, old, h1, h2, h3, h4⟩ := ha
          have hp0 := hperm []
          simp only [List.append_nil] at hp0
          refine .inr ⟨r, old, sn, h1, ?_, ?_, ?_⟩
          · exact List.mem_append_left _ (List.mem_map.2 ⟨r, h2, rfl⟩)
          · have := hp0.mem_iff.1 h3
            rw [List.mem_append] at this
            rw [← List.append_assoc]
            exact List.mem_append_left _ (List.mem_append.2 this)
          · intro hn
            apply h4
            rw [(hp0.map _).nodup_iff]
            rw [← List.append_assoc, List.map_append] at hn
            exact (List.nodup_append.1 hn).1
        | ok rep =>
          rw [h] at ha
          obtain ⟨h1, h2⟩ := ha
          subst h1
          simp only []
          have := ih { t with replace := (rs.map fun r => (r, sn)).reverse ++ t.replace }
          split at this
          · obtain ⟨h3, h4, h5, h6⟩ := this
            refine ⟨?_, h4, h5.trans (hperm _), fun hn => h6 (h2 hn)⟩
            intro c hc
            rcases List.mem_cons.1 hc with rfl | hc'
            · exact hp
            · exact h3 c hc'
          · rcases this with ⟨sn', h3, h4⟩ | ⟨tn, old, sn', h3, h4, h5, h6⟩
            · exact .inl ⟨sn', List.mem_cons_of_mem _ h3, h4⟩
            · refine .inr ⟨tn, old, sn', h3, List.mem_append_right _ h4, (hperm _).mem_iff.1 h5, ?_⟩
              rwa [← ((hperm _).map _).nodup_iff]
    · rw [if_neg hp]
      exact .inl ⟨sn, by simp, rfl, hp⟩

theorem addedAncestor_some {other : Hugr Op Meta} (ht : IsTree other)
    (children : List (Nat × Directive)) (fuel n p : Nat)
    (h : addedAncestor other children fuel n = some p) :
    Directive.isAdd (children.lookup p) = true ∧ Above other.hier.parent n p := by
  induction fuel generalizing n with
  | zero => simp [addedAncestor] at h
  | succ fuel ih =>
    rw [addedAncestor, getParent_eq ht] at h
    cases hp : other.hier.parent n with
    | none => rw [hp] at h; cases h
    | some q =>
      rw [hp] at h
      simp only [] at h
      split at h
      · cases h; exact ⟨by assumption, .of_parent hp⟩
      · obtain ⟨h1, h2⟩ := ih q h
        exact ⟨h1, .step hp h2⟩

theorem addedAncestor_none {other : Hugr Op Meta} (ht : IsTree other)
    (children : List (Nat × Directive)) (fuel n q p : Nat)
    (h : addedAncestor other children (fuel + 1) n = none) (hq : other.hier.parent n = some q)
    (hp : other.hier.onPath fuel q p = true) : Directive.isAdd (children.lookup p) = false := by
  induction fuel generalizing n q with
  | zero =>
    rw [addedAncestor, getParent_eq ht, hq] at h
    simp only [] at h
    simp only [Hier.onPath, beq_iff_eq] at hp
    subst hp
    split at h
    · cases h
    · rename_i hna
      simpa using hna
  | succ fuel ih =>
    rw [addedAncestor, getParent_eq ht, hq] at h
    simp only [] at h
    split at h
    · cases h
    · rename_i hna
      rw [Hier.onPath, Bool.or_eq_true] at hp
      rcases hp with hp | hp
      · simp only [beq_iff_eq] at hp
        subst hp
        simpa using hna
      · cases hr : other.hier.parent q with
        | none => rw [hr] at hp; cases hp
        | some r =>
          rw [hr] at hp
          exact ih q r h hr hp

theorem lookup_of_mem' {α : Type} {l : List (Nat × α)} (hl : (l.map Prod.fst).Nodup) {k : Nat} {v : α}
    (h : (k, v) ∈ l) : l.lookup k = some v := by
  induction l with
  | nil => simp at h
  | cons e l ih =>
    obtain ⟨a, b⟩ := e
    simp only [List.map_cons, List.nodup_cons] at hl
    rw [List.lookup_cons]
    rcases List.mem_cons.1 h with h' | h'
    · cases h'; simp
    · have hk : k ≠ a := by
        rintro rfl
        exact hl.1 (List.mem_map.2 ⟨_, h', rfl⟩)
      have : (k == a) = false := by simpa using hk
      rw [this]
      exact ih hl.2 h'

theorem mem_of_lookup' {α : Type} {l : List (Nat × α)} {k : Nat} {v : α} (h : l.lookup k = some v) :
    (k, v) ∈ l := by
  induction l with
  | nil => simp at h
  | cons e l ih =>
    obtain ⟨a, b⟩ := e
    rw [List.lookup_cons] at h
    by_cases hk : k = a
    · subst hk; simp only [beq_self_eq_true] at h; cases h; simp
    · have : (k == a) = false := by simpa using hk
      rw [this] at h
      exact List.mem_cons_of_mem _ (ih h)

/-- The checks of the entrypoint pass exactly if inserting the entrypoint does not insert a node
twice. -/
theorem checkEntrypoint_spec {other : Hugr Op Meta} (ht : IsTree other)
    (children : List (Nat × Directive)) (hnd : (children.map Prod.fst).Nodup) :
    (checkEntrypoint other children = none →
      (other.entrypoint = other.moduleRoot → children = []) ∧
      other.entrypoint ∉ children.map Prod.fst ∧
      ∀ c ∈ children, ∀ rs, c.2 = .add rs → ¬ Above other.hier.parent other.entrypoint c.1) ∧
    (∀ e, checkEntrypoint other children = some e →
      (∃ sn ∈ children.map Prod.fst, e = .childOfEntrypoint sn ∧ other.entrypoint = other.moduleRoot) ∨
      (∃ c ∈ children, e = .childContainsEntrypoint c.1 ∧
        Above other.hier.parent other.entrypoint c.1 ∧
        (other.entrypoint = c.1 ∨ ∃ rs, c.2 = .add rs))) := by
  unfold checkEntrypoint
  by_cases hr : other.entrypoint = other.moduleRoot
  · rw [if_pos hr]
    cases children with
    | nil => exact ⟨fun _ => by simp, by simp⟩
    | cons c cs =>
      refine ⟨by simp, ?_⟩
      intro e he
      simp only [Option.some.injEq] at he
      exact .inl ⟨c.1, by simp, he.symm, hr⟩
  · rw [if_neg hr]
    have hkey : ∀ k, (children.lookup k).isSome ↔ k ∈ children.map Prod.fst := by
      intro k
      constructor
      · intro h
        obtain ⟨v, hv⟩ := Option.isSome_iff_exists.1 h
        exact List.mem_map.2 ⟨_, mem_of_lookup' hv, rfl⟩
      · intro h
        obtain ⟨c, hc, rfl⟩ := List.mem_map.1 h
        rw [lookup_of_mem' hnd (show (c.1, c.2) ∈ children from hc)]; rfl
    by_cases hk : (children.lookup other.entrypoint).isSome
    · rw [if_pos hk]
      refine ⟨by simp, ?_⟩
      intro e he
      simp only [Option.some.injEq] at he
      obtain ⟨c, hc, hce⟩ := List.mem_map.1 ((hkey _).1 hk)
      exact .inr ⟨c, hc, by rw [hce]; exact he.symm, by rw [hce]; exact .refl _, .inl hce.symm⟩
    · rw [if_neg hk]
      constructor
      · intro hn
        simp only [Option.map_eq_none_iff] at hn
        refine ⟨fun h => absurd h hr, fun h => hk ((hkey _).2 h), ?_⟩
        intro c hc rs hrs ha
        cases hcx : c with
        | mk k d =>
        rw [hcx] at ha hc hrs
        simp only at ha hrs
        subst hrs
        have hne : other.entrypoint ≠ k := by
          intro he; exact hk ((hkey _).2 (List.mem_map.2 ⟨_, hc, he.symm⟩))
        cases ha with
        | refl => exact hne rfl
        | step hp ha =>
          have := addedAncestor_none ht children other.cap other.entrypoint _ k hn hp
            ((onPath_iff ht.acyclic ht.bounded _ _).2 ha)
          rw [lookup_of_mem' hnd hc] at this
          cases this
      · intro e he
        simp only [Option.map_eq_some_iff] at he
        obtain ⟨p, hp, rfl⟩ := he
        obtain ⟨h1, h2⟩ := addedAncestor_some ht children _ _ _ hp
        cases hlk : children.lookup p with
        | none => rw [hlk] at h1; cases h1
        | some d =>
          rw [hlk] at h1
          cases d with
          | useExisting _ => cases h1
          | add rs => exact .inr ⟨(p, .add rs), mem_of_lookup' hlk, rfl, h2, .inr ⟨rs, rfl⟩⟩

/-- `check_directives` accepts exactly the consistent directives, and collects what they say; an error
says what is wrong. -/
theorem checkDirectives_spec {other : Hugr Op Meta} (ht : IsTree other) (parent : Option Nat)
    (children : List (Nat × Directive)) (hnd : (children.map Prod.fst).Nodup) :
    match checkDirectives other parent children with
    | .ok t => Consistent other parent children ∧ t.useExisting.Perm (uses children) ∧
        t.replace.Perm (replacements children)
    | .error e => ¬ Consistent other parent children ∧ e.Explained other parent children := by
  unfold checkDirectives
  obtain ⟨hn, hs⟩ := checkEntrypoint_spec ht children hnd
  have hc := collectTransfers_spec ht children ⟨[], []⟩
  cases he : (if parent.isSome then checkEntrypoint other children else none) with
  | some e =>
    simp only []
    have hp : parent.isSome = true := by
      by_cases hp : parent.isSome = true
      · exact hp
      · rw [if_neg hp] at he; cases he
    rw [if_pos hp] at he
    rcases hs e he with ⟨sn, h1, rfl, h3⟩ | ⟨c, h1, rfl, h3, h4⟩
    · refine ⟨fun hcon => ?_, hp, h3, h1⟩
      rw [hcon.entry_root hp h3] at h1
      simp at h1
    · refine ⟨fun hcon => ?_, hp, List.mem_map.2 ⟨c, h1, rfl⟩, h3⟩
      rcases h4 with h4 | ⟨rs, h4⟩
      · exact hcon.entry_child hp (List.mem_map.2 ⟨c, h1, h4.symm⟩)
      · exact hcon.entry_added hp c h1 rs h4 h3
  | none =>
    simp only []
    cases hcol : collectTransfers other children ⟨[], []⟩ with
    | ok t =>
      rw [hcol] at hc
      obtain ⟨h1, h2, h3, h4⟩ := hc
      simp only [List.nil_append] at h2 h3
      refine ⟨⟨h1, (h3.map _).nodup_iff.1 (h4 (by simp)), ?_, ?_, ?_⟩, h2, h3⟩
      · intro hp; rw [if_pos hp] at he; exact (hn he).1
      · intro hp; rw [if_pos hp] at he; exact (hn he).2.1
      · intro hp; rw [if_pos hp] at he; exact (hn he).2.2
    | error e =>
      rw [hcol] at hc
      rcases hc with ⟨sn, h1, rfl, h3⟩ | ⟨tn, old, sn, rfl, h2, h3, h4⟩
      · refine ⟨fun hcon => ?_, h1, h3⟩
        obtain ⟨c, hc, rfl⟩ := List.mem_map.1 h1
        exact h3 (hcon.of_root c hc)
      · simp only [List.nil_append] at h3 h4
        exact ⟨fun hcon => h4 hcon.once, h3, h2, h4⟩

end Verif.Graph
