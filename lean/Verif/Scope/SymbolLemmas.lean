import Verif.Common.Machine
import Verif.Scope.SymbolSpec
/-!
# Lemmas on index maps and on the representation of a stack of regions
-/
namespace Verif.Scope

section IndexMap
variable {K V : Type} [DecidableEq K]

theorem imFind_insert (l : List (K × V)) (k : K) (v : V) (k' : K) :
    imFind (imInsert l k v).1 k' =
      if k = k' then some ((imInsert l k v).2.1, v) else imFind l k' := by
  induction l with
  | nil => simp [imInsert, imFind]
  | cons e l ih =>
    obtain ⟨a, b⟩ := e
    by_cases h : a = k
    · subst h
      by_cases h' : a = k' <;> simp [imInsert, imFind, h']
    · simp only [imInsert, h, if_false, imFind, ih]
      by_cases h' : a = k'
      · subst h'
        simp [Ne.symm h]
      · by_cases h'' : k = k' <;> simp [h', h'']

theorem imInsert_old (l : List (K × V)) (k : K) (v : V) :
    (imInsert l k v).2.2 = (imFind l k).map (·.2) := by
  induction l with
  | nil => simp [imInsert, imFind]
  | cons e l ih =>
    obtain ⟨a, b⟩ := e
    by_cases h : a = k
    · subst h; simp [imInsert, imFind]
    · simp [imInsert, imFind, h, ih, Option.map_map, Function.comp_def]

theorem imInsert_idx_le (l : List (K × V)) (k : K) (v : V) : (imInsert l k v).2.1 ≤ l.length := by
  induction l with
  | nil => simp [imInsert]
  | cons e l ih =>
    obtain ⟨a, b⟩ := e
    by_cases h : a = k
    · subst h; simp [imInsert]
    · simp [imInsert, h]; exact ih

theorem imInsert_length_le (l : List (K × V)) (k : K) (v : V) :
    (imInsert l k v).1.length ≤ l.length + 1 := by
  induction l with
  | nil => simp [imInsert]
  | cons e l ih =>
    obtain ⟨a, b⟩ := e
    by_cases h : a = k
    · subst h; simp [imInsert]
    · simp [imInsert, h]; exact ih

theorem imInsert_get (l : List (K × V)) (k : K) (v : V) :
    (imInsert l k v).1[(imInsert l k v).2.1]? = some (k, v) := by
  induction l with
  | nil => simp [imInsert]
  | cons e l ih =>
    obtain ⟨a, b⟩ := e
    by_cases h : a = k
    · subst h; simp [imInsert]
    · simp [imInsert, h, ih]

theorem imInsert_keys (l : List (K × V)) (k : K) (v : V) (i : Nat) (a : K)
    (h : (l[i]?).map Prod.fst = some a) : ((imInsert l k v).1[i]?).map Prod.fst = some a := by
  induction l generalizing i with
  | nil => simp at h
  | cons e l ih =>
    obtain ⟨a', b⟩ := e
    by_cases hk : a' = k
    · subst hk
      cases i <;> simpa [imInsert] using h
    · cases i with
      | zero => simpa [imInsert, hk] using h
      | succ i =>
        simp only [List.getElem?_cons_succ] at h
        simpa [imInsert, hk] using ih i h

theorem imInsert_restore (l : List (K × V)) (k : K) (v : V) :
    match (imInsert l k v).2.2 with
    | some v0 => (imInsert l k v).2.1 < (imInsert l k v).1.length ∧
        imSet (imInsert l k v).1 (imInsert l k v).2.1 v0 = l
    | none => (imInsert l k v).1 = l ++ [(k, v)] ∧ (imInsert l k v).2.1 = l.length := by
  induction l with
  | nil => simp [imInsert]
  | cons e l ih =>
    obtain ⟨a, b⟩ := e
    by_cases hk : a = k
    · subst hk; simp [imInsert, imSet]
    · simp only [imInsert, hk, if_false]
      revert ih
      cases (imInsert l k v).2.2 with
      | none => intro ih; simp [ih.1, ih.2]
      | some v0 => intro ih; simp [imSet, ih.1, ih.2]

theorem imInsert_restore_insert (l : List (K × V)) (k : K) (v v0 : V)
    (h : (imInsert l k v).2.2 = some v0) : (imInsert (imInsert l k v).1 k v0).1 = l := by
  induction l with
  | nil => simp [imInsert] at h
  | cons e l ih =>
    obtain ⟨a, b⟩ := e
    by_cases hk : a = k
    · subst hk
      simp [imInsert] at h
      simp [imInsert, h]
    · simp only [imInsert, hk, if_false] at h ⊢
      simp [ih h]

theorem imInsert_fresh (l : List (K × V)) (k : K) (v : V) (h : k ∉ l.map Prod.fst) :
    imInsert l k v = (l ++ [(k, v)], l.length, none) := by
  induction l with
  | nil => simp [imInsert]
  | cons e l ih =>
    obtain ⟨a, b⟩ := e
    simp only [List.map_cons, List.mem_cons, not_or] at h
    simp [imInsert, Ne.symm h.1, ih h.2]

theorem imFind_append (l l' : List (K × V)) (k : K) :
    imFind (l ++ l') k =
      match imFind l k with
      | some p => some p
      | none => (imFind l' k).map fun p => (p.1 + l.length, p.2) := by
  induction l with
  | nil => simp [imFind]
  | cons e l ih =>
    obtain ⟨a, b⟩ := e
    by_cases hk : a = k
    · simp [imFind, hk]
    · simp only [List.cons_append, imFind, hk, if_false, ih]
      cases imFind l k with
      | some p => simp
      | none =>
        simp [Option.map_map, Function.comp_def, Nat.add_assoc]

theorem imFind_spec (l : List (K × V)) (k : K) (i : Nat) (v : V) (h : imFind l k = some (i, v)) :
    l[i]? = some (k, v) := by
  induction l generalizing i with
  | nil => simp [imFind] at h
  | cons e l ih =>
    obtain ⟨a, b⟩ := e
    by_cases hk : a = k
    · simp only [imFind, hk, if_true, Option.some.injEq, Prod.mk.injEq] at h
      simp [← h.1, ← h.2, hk]
    · simp only [imFind, hk, if_false] at h
      cases hf : imFind l k with
      | none => simp [hf] at h
      | some p =>
        obtain ⟨i', v'⟩ := p
        simp only [hf, Option.map_some, Option.some.injEq, Prod.mk.injEq] at h
        obtain ⟨rfl, rfl⟩ := h
        simpa using ih i' hf

theorem imFind_none (l : List (K × V)) (k : K) : imFind l k = none ↔ k ∉ l.map Prod.fst := by
  induction l with
  | nil => simp [imFind]
  | cons e l ih =>
    obtain ⟨a, b⟩ := e
    by_cases hk : a = k
    · simp [imFind, hk]
    · simp [imFind, hk, ih, Ne.symm hk]

end IndexMap

/-- One binding of the flattened stack: depth of its region, name, node. -/
abbrev FlatBind := Nat × String × Nat

/-- The bindings of all open regions, outermost region first. -/
def flat : List Frame → List FlatBind
  | [] => []
  | f :: st => flat st ++ f.binds.map fun p => (st.length, p.1, p.2)

/-- The scope records of a stack of regions. -/
def scopesOf : List Frame → List (Nat × Nat)
  | [] => []
  | f :: st => scopesOf st ++ [(f.region, (flat st).length)]

/-- The effect of one successful insertion on the two maps. -/
def rawInsert (sb : List (String × Nat) × List (Nat × Binding)) (x : FlatBind) :
    List (String × Nat) × List (Nat × Binding) :=
  let r := imInsert sb.1 x.2.1 sb.2.length
  (r.1, sb.2 ++ [(x.2.2, ⟨x.1, r.2.2, r.2.1⟩)])

/-- The two maps representing a sequence of bindings. -/
def build (F : List FlatBind) : List (String × Nat) × List (Nat × Binding) :=
  F.foldl rawInsert ([], [])

theorem build_snoc (F : List FlatBind) (x : FlatBind) :
    build (F ++ [x]) = rawInsert (build F) x := by simp [build, List.foldl_append]

/-- Position of the last binding of a name. -/
def lastIdx : List FlatBind → String → Option Nat
  | [], _ => none
  | x :: F, s =>
    match lastIdx F s with
    | some i => some (i + 1)
    | none => if x.2.1 = s then some 0 else none

theorem lastIdx_append (F G : List FlatBind) (s : String) :
    lastIdx (F ++ G) s =
      match lastIdx G s with
      | some i => some (i + F.length)
      | none => lastIdx F s := by
  induction F with
  | nil => cases h : lastIdx G s <;> simp [lastIdx, h]
  | cons x F ih =>
    simp only [List.cons_append, lastIdx, ih]
    cases lastIdx G s <;> simp [Nat.add_assoc]

theorem lastIdx_snoc (F : List FlatBind) (x : FlatBind) (s : String) :
    lastIdx (F ++ [x]) s = if x.2.1 = s then some F.length else lastIdx F s := by
  rw [lastIdx_append]
  by_cases h : x.2.1 = s <;> simp [lastIdx, h]

theorem snoc_induction {α : Type} {P : List α → Prop} (h0 : P [])
    (h1 : ∀ l x, P l → P (l ++ [x])) : ∀ l, P l := by
  intro l
  have : P l.reverse.reverse := by
    induction l.reverse with
    | nil => simpa using h0
    | cons a l ih => simpa using h1 _ a ih
  simpa using this

/-- Facts about the two maps representing a sequence of bindings. -/
theorem build_facts (F : List FlatBind) :
    (build F).2.length = F.length ∧
    (build F).1.length ≤ F.length ∧
    (∀ s, (imFind (build F).1 s).map Prod.snd = lastIdx F s) ∧
    (∀ (j : Nat) (x : FlatBind), F[j]? = some x → ∃ b : Binding, (build F).2[j]? = some (x.2.2, b) ∧ b.scopeDepth = x.1 ∧
      b.symbolIndex ≤ j ∧ ((build F).1[b.symbolIndex]?).map Prod.fst = some x.2.1) ∧
    ((build F).1.map Prod.fst).Nodup := by
  induction F using snoc_induction with
  | h0 => simp [build, imFind, lastIdx]
  | h1 F x ih =>
    obtain ⟨h1, h2, h3, h4, h5⟩ := ih
    rw [build_snoc]
    simp only [rawInsert]
    refine ⟨by simp [h1], ?_, ?_, ?_, ?_⟩
    · have := imInsert_length_le (build F).1 x.2.1 (build F).2.length
      simp only [List.length_append, List.length_cons, List.length_nil]; omega
    · intro s
      rw [imFind_insert, lastIdx_snoc]
      by_cases hs : x.2.1 = s
      · simp [hs, h1]
      · simp [hs, h3]
    · intro j y hj
      by_cases hlt : j < F.length
      · rw [List.getElem?_append_left hlt] at hj
        obtain ⟨b, hb1, hb2, hb3, hb4⟩ := h4 j y hj
        refine ⟨b, ?_, hb2, hb3, imInsert_keys _ _ _ _ _ hb4⟩
        rw [List.getElem?_append_left (by omega)]; exact hb1
      · have hj' : j < F.length + 1 := by
          have := (List.getElem?_eq_some_iff.1 hj).1; simpa using this
        have hje : j = F.length := by omega
        subst hje
        simp at hj
        subst hj
        refine ⟨⟨x.1, (imInsert (build F).1 x.2.1 (build F).2.length).2.2,
          (imInsert (build F).1 x.2.1 (build F).2.length).2.1⟩, ?_, rfl, ?_, ?_⟩
        · rw [← h1]; simp
        · have := imInsert_idx_le (build F).1 x.2.1 (build F).2.length
          simp only; omega
        · simp [imInsert_get]
    · have hr := imInsert_restore (build F).1 x.2.1 (build F).2.length
      have ho := imInsert_old (build F).1 x.2.1 (build F).2.length
      cases hc : (imInsert (build F).1 x.2.1 (build F).2.length).2.2 with
      | none =>
        rw [hc] at hr ho
        have hnf : imFind (build F).1 x.2.1 = none := by
          cases hf : imFind (build F).1 x.2.1 with
          | none => rfl
          | some p => simp [hf] at ho
        rw [hr.1]
        have := (imFind_none _ _).1 hnf
        rw [List.map_append, List.nodup_append]
        refine ⟨h5, by simp, ?_⟩
        intro a ha b hb
        simp at hb
        subst hb
        intro hab
        exact this (hab ▸ ha)
      | some v0 =>
        rw [hc] at hr
        have hkeys : ∀ (l : List (String × Nat)) i v, (imSet l i v).map Prod.fst = l.map Prod.fst := by
          intro l
          induction l with
          | nil => intros; simp [imSet]
          | cons e l ihl => intro i v; cases i <;> simp [imSet, ihl]
        have := hkeys (imInsert (build F).1 x.2.1 (build F).2.length).1
          (imInsert (build F).1 x.2.1 (build F).2.length).2.1 v0
        rw [hr.2] at this
        rw [← this]; exact h5

theorem popBinding_build (F : List FlatBind) (x : FlatBind) (sc : List (Nat × Nat)) :
    SymbolTable.popBinding ⟨(build (F ++ [x])).1, (build (F ++ [x])).2, sc⟩ =
      some ⟨(build F).1, (build F).2, sc⟩ := by
  rw [build_snoc]
  simp only [rawInsert, SymbolTable.popBinding, List.getLast?_concat, List.dropLast_concat]
  have hr := imInsert_restore (build F).1 x.2.1 (build F).2.length
  revert hr
  cases (imInsert (build F).1 x.2.1 (build F).2.length).2.2 with
  | none =>
    intro hr
    simp [hr.1]
  | some v0 =>
    intro hr
    simp only [hr.1, if_true, hr.2]

theorem popBindings_build (F G : List FlatBind) (sc : List (Nat × Nat)) :
    SymbolTable.popBindings G.length ⟨(build (F ++ G)).1, (build (F ++ G)).2, sc⟩ =
      some ⟨(build F).1, (build F).2, sc⟩ := by
  induction G using snoc_induction with
  | h0 => simp [SymbolTable.popBindings]
  | h1 G x ih =>
    simp only [List.length_append, List.length_cons, List.length_nil, ← List.append_assoc]
    simp only [SymbolTable.popBindings, popBinding_build, Option.bind_some, ih]

end Verif.Scope
