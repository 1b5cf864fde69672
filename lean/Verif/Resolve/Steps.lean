import Verif.Resolve.Model
import Verif.Resolve.Spec
import Verif.Scope.VarProps
import Verif.Scope.LinkProps
import Verif.Scope.SymbolProps
import Mathlib.Tactic.Common
/-!
# What the steps of the resolution keep
-/
namespace Verif.Resolve
open Verif
open Verif.Binary (NodeId LinkIndex RegionId TermId Literal)
open Verif.Scope

theorem bind_ok {α β : Type} {r : R α} {f : α → State → R β} {b : β} {s' : State} (h : r.bind f = .ok b s') :
    ∃ a s, r = .ok a s ∧ f a s = .ok b s' := by
  cases r with
  | ok a s => exact ⟨a, s, rfl, h⟩
  | error e => cases h
  | panic => cases h

theorem newId_some {n : Nat} {id : UInt32} (h : newId n = some id) : id.toNat = n ∧ n < 4294967295 := by
  unfold newId at h
  split at h
  · rename_i hn
    cases h
    exact ⟨UInt32.toNat_ofNat_of_lt' (by simp [UInt32.size]; omega), hn⟩
  · cases h

/-- The tables of scopes represent the stacks of open scopes, and the ids in them are in range. -/
structure Inv (s : State) (vs : VarStack) (ls : List OpenRegion) (fs : List Frame) : Prop where
  vars : VarRep s.vars.scopes s.vars.vars vs
  links : LinkRep s.links.scopes s.links.links ls
  symbols : SymRep s.symbols fs
  varNodes : ∀ v ∈ vs, v.1 < s.nodes.length
  varNames : ∀ v ∈ vs, v.2.Nodup
  linkRegions : ∀ f ∈ ls, f.region < s.regions.length
  linkNames : ∀ f ∈ ls, f.names.Nodup
  linkUses : ∀ f ∈ ls, f.uses < 2 ^ 32
  frameRegions : ∀ f ∈ fs, f.region < s.regions.length
  bound : ∀ f ∈ fs, ∀ b ∈ f.binds, b.2 < s.nodes.length
  nodes : s.nodes.length ≤ 4294967295
  regions : s.regions.length ≤ 4294967295
  terms : s.terms.length ≤ 4294967295
  importNames : (s.imports.map Prod.fst).Nodup
  importNodes : ∀ p ∈ s.imports, p.2.toNat < s.nodes.length

/-- What a call adds to the tables, when it may overwrite the nodes given. -/
structure Step (ids : List Nat) (s s' : State) : Prop where
  nodes_le : s.nodes.length ≤ s'.nodes.length
  nodes_eq : ∀ j, j < s.nodes.length → j ∉ ids → s'.nodes[j]? = s.nodes[j]?
  regions_le : s.regions.length ≤ s'.regions.length
  regions_eq : ∀ j, j < s.regions.length → s'.regions[j]? = s.regions[j]?
  terms : s.terms <+: s'.terms
  imports : s.imports <+: s'.imports
  fresh : ∀ p ∈ s'.imports, p ∈ s.imports ∨
    (s.nodes.length ≤ p.2.toNat ∧ p.2.toNat < s'.nodes.length ∧ s'.nodes[p.2.toNat]? = some (importNode p.1))

theorem Step.refl (s : State) : Step [] s s :=
  ⟨Nat.le_refl _, fun _ _ _ => rfl, Nat.le_refl _, fun _ _ => rfl, List.prefix_rfl, List.prefix_rfl,
    fun _ hp => Or.inl hp⟩

theorem Step.trans {ids1 ids2 : List Nat} {a b c : State} (h1 : Step ids1 a b) (h2 : Step ids2 b c)
    (hi : ∀ i ∈ ids2, i < a.nodes.length) : Step (ids1 ++ ids2) a c := by
  refine ⟨Nat.le_trans h1.nodes_le h2.nodes_le, ?_, Nat.le_trans h1.regions_le h2.regions_le, ?_, h1.terms.trans h2.terms,
    h1.imports.trans h2.imports, ?_⟩
  · intro j hj hn
    rw [List.mem_append, not_or] at hn
    rw [h2.nodes_eq j (Nat.lt_of_lt_of_le hj h1.nodes_le) hn.2, h1.nodes_eq j hj hn.1]
  · intro j hj
    rw [h2.regions_eq j (Nat.lt_of_lt_of_le hj h1.regions_le), h1.regions_eq j hj]
  · intro p hp
    rcases h2.fresh p hp with h | ⟨h, h', h''⟩
    · rcases h1.fresh p h with h | ⟨h, h', h''⟩
      · exact Or.inl h
      · refine Or.inr ⟨h, Nat.lt_of_lt_of_le h' h2.nodes_le, ?_⟩
        rw [h2.nodes_eq _ h' (fun hc => absurd (hi _ hc) (by omega)), h'']
    · exact Or.inr ⟨Nat.le_trans h1.nodes_le h, h', h''⟩

theorem Step.trans_nil {a b c : State} (h1 : Step [] a b) (h2 : Step [] b c) : Step [] a c :=
  h1.trans h2 (fun _ h => nomatch h)

/-- The tables agree with the result of a call, as far as the call has made them. -/
structure Final (m : Binary.Module) (imps : List (String × NodeId)) (ids : List Nat) (s s' : State) : Prop where
  nodes : ∀ j, j ∈ ids ∨ s.nodes.length ≤ j → j < s'.nodes.length → m.nodes[j]? = s'.nodes[j]?
  regions : ∀ j, s.regions.length ≤ j → j < s'.regions.length → m.regions[j]? = s'.regions[j]?
  terms : s'.terms <+: m.terms
  imports : s'.imports <+: imps

theorem Final.left {m : Binary.Module} {imps : List (String × NodeId)} {ids1 ids2 : List Nat} {a b c : State}
    (h : Final m imps (ids1 ++ ids2) a c) (h2 : Step ids2 b c)
    (hi : ∀ i ∈ ids2, i < a.nodes.length) (hd : ∀ i ∈ ids1, i ∉ ids2) : Final m imps ids1 a b := by
  refine ⟨fun j hj hl => ?_, fun j hj hl => ?_, h2.terms.trans h.terms, h2.imports.trans h.imports⟩
  · rw [h.nodes j (hj.imp (List.mem_append_left _) id) (Nat.lt_of_lt_of_le hl h2.nodes_le)]
    refine h2.nodes_eq j hl fun hc => ?_
    rcases hj with hj | hj
    · exact hd j hj hc
    · exact absurd (hi j hc) (by omega)
  · rw [h.regions j hj (Nat.lt_of_lt_of_le hl h2.regions_le), h2.regions_eq j hl]

theorem Final.right {m : Binary.Module} {imps : List (String × NodeId)} {ids1 ids2 : List Nat} {a b c : State}
    (h : Final m imps (ids1 ++ ids2) a c) (h1 : Step ids1 a b) : Final m imps ids2 b c :=
  ⟨fun j hj hl => h.nodes j (hj.imp (List.mem_append_right _) (Nat.le_trans h1.nodes_le)) hl,
    fun j hj hl => h.regions j (Nat.le_trans h1.regions_le hj) hl, h.terms, h.imports⟩

theorem Final.left_nil {m : Binary.Module} {imps : List (String × NodeId)} {a b c : State}
    (h : Final m imps [] a c) (h2 : Step [] b c) : Final m imps [] a b :=
  Final.left (ids1 := []) (ids2 := []) h h2 (fun _ h => nomatch h) (fun _ h => nomatch h)

theorem Final.right_nil {m : Binary.Module} {imps : List (String × NodeId)} {a b c : State}
    (h : Final m imps [] a c) (h1 : Step [] a b) : Final m imps [] b c :=
  Final.right (ids1 := []) (ids2 := []) h h1

/-- The imports added are the free symbols that no scope has. -/
def Frees (fs : List Frame) (free : String → Prop) (s s' : State) : Prop :=
  ∀ x, x ∈ s'.imports.map Prod.fst ↔ x ∈ s.imports.map Prod.fst ∨ (SymSpec.lookup fs x = none ∧ free x)

theorem Frees.of_eq {fs : List Frame} {s s' : State} (h : s'.imports = s.imports) :
    Frees fs (fun _ => False) s s' := by
  intro x
  simp [h]

theorem Frees.trans {fs : List Frame} {f g : String → Prop} {a b c : State} (h1 : Frees fs f a b)
    (h2 : Frees fs g b c) : Frees fs (fun x => f x ∨ g x) a c := by
  intro x
  rw [h2 x, h1 x]
  tauto

theorem Frees.congr {fs : List Frame} {f g : String → Prop} {a b : State} (h : Frees fs f a b)
    (e : ∀ x, f x ↔ g x) : Frees fs g a b := by
  intro x
  rw [h x, e x]

/-- The scopes of the stack of open regions, for the specification. -/
def scopesFor (fs : List Frame) : List (List (String × NodeId)) :=
  fs.map fun f => f.binds.map fun b => (b.1, UInt32.ofNat b.2)

/-- What names stand for, given the open scopes and the imports. -/
def envFor (vs : VarStack) (fs : List Frame) (imps : List (String × NodeId)) : Env :=
  ⟨scopesFor fs, vs.head?.map fun v => (UInt32.ofNat v.1, v.2), imps⟩

theorem lookup_binds (x : String) : ∀ bs : List (String × Nat),
    (bs.map fun b => (b.1, UInt32.ofNat b.2)).lookup x = ((bs.find? (·.1 = x)).map (·.2)).map UInt32.ofNat
  | [] => rfl
  | b :: bs => by
    rw [List.map_cons, List.lookup_cons, List.find?_cons, lookup_binds x bs]
    by_cases h : b.1 = x
    · simp [h]
    · have : (x == b.1) = false := by simpa using fun e => h e.symm
      simp [this, h]

theorem lookup_scopes (x : String) : ∀ fs : List Frame,
    lookupScopes (scopesFor fs) x = (SymSpec.lookup fs x).map UInt32.ofNat
  | [] => rfl
  | f :: fs => by
    have ih := lookup_scopes x fs
    simp only [scopesFor, List.map_cons, lookupScopes, SymSpec.lookup, Frame.find] at ih ⊢
    rw [lookup_binds]
    cases (f.binds.find? (·.1 = x)).map (·.2) with
    | none => exact ih
    | some n => rfl

/-- The names of links of the innermost open region. -/
def headNames : List OpenRegion → List String
  | [] => []
  | f :: _ => f.names

/-- What happens to the innermost open region when links are used. -/
def LinkGrow (xs : List String) : List OpenRegion → List OpenRegion → Prop
  | f :: r, f' :: r' => r' = r ∧ f'.region = f.region ∧ f.names <+: f'.names ∧
      (∀ x, x ∈ f'.names ↔ x ∈ f.names ∨ x ∈ xs) ∧ f'.uses = f.uses + xs.length
  | [], [] => xs = []
  | _, _ => False

theorem LinkGrow.refl (ls : List OpenRegion) : LinkGrow [] ls ls := by
  cases ls with
  | nil => rfl
  | cons f r => exact ⟨rfl, rfl, List.prefix_rfl, by simp, by simp⟩

theorem LinkGrow.trans {xs ys : List String} : ∀ {a b c : List OpenRegion}, LinkGrow xs a b → LinkGrow ys b c →
    LinkGrow (xs ++ ys) a c
  | [], [], [], h1, h2 => by
    simp only [LinkGrow] at h1 h2 ⊢
    simp [h1, h2]
  | f :: r, f' :: r', f'' :: r'', h1, h2 => by
    obtain ⟨a1, a2, a3, a4, a5⟩ := h1
    obtain ⟨b1, b2, b3, b4, b5⟩ := h2
    refine ⟨b1.trans a1, b2.trans a2, a3.trans b3, ?_, by rw [b5, a5, List.length_append]; omega⟩
    intro x
    rw [b4, a4, List.mem_append]
    tauto
  | [], [], _ :: _, _, h => h.elim
  | [], _ :: _, _, h, _ => h.elim
  | _ :: _, [], _, h, _ => h.elim
  | _ :: _, _ :: _, [], _, h => h.elim

theorem LinkGrow.head {xs : List String} : ∀ {a b : List OpenRegion}, LinkGrow xs a b → headNames a <+: headNames b
  | [], [], _ => List.prefix_rfl
  | _ :: _, _ :: _, h => h.2.2.1
  | [], _ :: _, h => h.elim
  | _ :: _, [], h => h.elim

/-- A call keeps the invariant, adds what it should, and the tables then represent what it should. -/
def Good (ids : List Nat) (fs : List Frame) (free : String → Prop) (s s' : State) (vs' : VarStack)
    (ls' : List OpenRegion) (rep : Binary.Module → List (String × NodeId) → Prop) : Prop :=
  Inv s' vs' ls' fs ∧ Step ids s s' ∧ Frees fs free s s' ∧ ∀ m imps, Final m imps ids s s' → rep m imps

theorem Good.seq {fs : List Frame} {f g : String → Prop} {a b c : State} {vs1 vs2 : VarStack}
    {ls1 ls2 : List OpenRegion} {r1 r2 : Binary.Module → List (String × NodeId) → Prop}
    (h1 : Good [] fs f a b vs1 ls1 r1) (h2 : Good [] fs g b c vs2 ls2 r2) :
    Good [] fs (fun x => f x ∨ g x) a c vs2 ls2 fun m i => r1 m i ∧ r2 m i :=
  ⟨h2.1, h1.2.1.trans_nil h2.2.1, h1.2.2.1.trans h2.2.2.1, fun m i hf =>
    ⟨h1.2.2.2 m i (hf.left_nil h2.2.1), h2.2.2.2 m i (hf.right_nil h1.2.1)⟩⟩

theorem Good.imp {ids : List Nat} {fs : List Frame} {f g : String → Prop} {a b : State} {vs : VarStack}
    {ls : List OpenRegion} {r1 r2 : Binary.Module → List (String × NodeId) → Prop} (h : Good ids fs f a b vs ls r1)
    (e : ∀ x, f x ↔ g x) (i : ∀ m i, r1 m i → r2 m i) : Good ids fs g a b vs ls r2 :=
  ⟨h.1, h.2.1, h.2.2.1.congr e, fun m j hf => i m j (h.2.2.2 m j hf)⟩

theorem Good.refl {fs : List Frame} {s : State} {vs : VarStack} {ls : List OpenRegion} (h : Inv s vs ls fs) :
    Good [] fs (fun _ => False) s s vs ls fun _ _ => True :=
  ⟨h, Step.refl s, Frees.of_eq rfl, fun _ _ _ => trivial⟩

/-! ## Primitive calls -/

theorem getElem?_prefix {α : Type} {l l' : List α} (h : l <+: l') {i : Nat} {a : α} (hi : l[i]? = some a) :
    l'[i]? = some a := by
  obtain ⟨t, rfl⟩ := h
  rw [List.getElem?_append_left (List.getElem?_eq_some_iff.1 hi).1, hi]

theorem lookup_prefix {l l' : List (String × NodeId)} (h : l <+: l') {x : String} {n : NodeId}
    (hl : l.lookup x = some n) : l'.lookup x = some n := by
  obtain ⟨t, rfl⟩ := h
  rw [List.lookup_append, hl]
  rfl

theorem internTerm_good {t : Binary.Term} {s s' : State} {id : TermId} {vs : VarStack} {ls : List OpenRegion}
    {fs : List Frame} (hi : Inv s vs ls fs) (h : internTerm t s = .ok id s') :
    Good [] fs (fun _ => False) s s' vs ls fun m _ => ∃ t', sameTerm t t' = true ∧ m.terms[id.toNat]? = some t' := by
  unfold internTerm at h
  cases hf : s.terms.findIdx? (sameTerm t) with
  | some i =>
    rw [hf] at h
    simp only at h
    cases hid : newId i with
    | none => rw [hid] at h; cases h
    | some id' =>
      rw [hid] at h
      cases h
      refine ⟨hi, Step.refl s, Frees.of_eq rfl, fun m imps hfin => ?_⟩
      rw [List.findIdx?_eq_some_iff_getElem] at hf
      obtain ⟨hl, hs, _⟩ := hf
      refine ⟨s.terms[i], hs, getElem?_prefix hfin.terms ?_⟩
      rw [(newId_some hid).1, List.getElem?_eq_getElem hl]
  | none =>
    rw [hf] at h
    simp only at h
    cases hid : newId s.terms.length with
    | none => rw [hid] at h; cases h
    | some id' =>
      rw [hid] at h
      cases h
      obtain ⟨h1, h2⟩ := newId_some hid
      refine ⟨{ hi with terms := ?_ }, ?_, Frees.of_eq rfl, ?_⟩
      · simp only [List.length_append, List.length_singleton]; omega
      · exact ⟨Nat.le_refl _, fun _ _ _ => rfl, Nat.le_refl _, fun _ _ => rfl, List.prefix_append _ _,
          List.prefix_rfl, fun _ hp => Or.inl hp⟩
      · intro m imps hfin
        refine ⟨t, ?_, getElem?_prefix hfin.terms ?_⟩
        · cases t <;> simp [sameTerm]
          rename_i l
          cases l <;> simp [sameLiteral, sameFloat]
        · simp [h1]

theorem sameTerm_eq {t t' : Binary.Term} (h : sameTerm t t' = true) (hl : ∀ l, t ≠ .literal l) : t' = t := by
  unfold sameTerm at h
  split at h
  · exact absurd rfl (hl _)
  · exact (of_decide_eq_true h).symm

theorem sameLiteral_iff (a b : Literal) : sameLiteral a b = true ↔ LiteralEq a b := by
  cases a <;> cases b <;> simp [sameLiteral, LiteralEq, sameFloat, isNaN, isZero, or_assoc]

theorem sameTerm_literal {l : Literal} {t' : Binary.Term} (h : sameTerm (.literal l) t' = true) :
    ∃ l', t' = .literal l' ∧ LiteralEq l l' := by
  cases t' with
  | literal l' => exact ⟨l', rfl, (sameLiteral_iff l l').1 h⟩
  | _ => simp [sameTerm] at h

theorem resolveVar_ok {x : String} {s s' : State} {v : NodeId × UInt16} {vs : VarStack} {ls : List OpenRegion}
    {fs : List Frame} (hi : Inv s vs ls fs) (h : resolveVar x s = .ok v s') :
    s' = s ∧ ∃ names, (vs.head?.map fun v => (UInt32.ofNat v.1, v.2)) = some (v.1, names) ∧
      names[v.2.toNat]? = some x := by
  have ha := var_step_agrees s.vars vs (.resolve x) hi.vars trivial
  unfold resolveVar at h
  cases hr : s.vars.resolve x with
  | none => rw [hr] at h; cases h
  | some o =>
    rw [hr] at h
    simp only [VarTable.step, hr, Option.map_some] at ha
    cases vs with
    | nil =>
      simp only [VarSpec.step, StepAgrees] at ha
      rw [ha.1] at h
      cases h
    | cons v0 vr =>
      obtain ⟨n, names⟩ := v0
      simp only [VarSpec.step] at ha
      by_cases hx : x ∈ names
      · rw [if_pos hx] at ha
        simp only [StepAgrees] at ha
        rw [ha.1] at h
        cases h
        refine ⟨rfl, names, rfl, ?_⟩
        have hlt : names.findIdx (· = x) < names.length :=
          List.findIdx_lt_length_of_exists ⟨x, hx, by simp⟩
        have hb : names.length < 65536 := by
          have := hi.vars
          cases hsc : s.vars.scopes with
          | nil => rw [hsc] at this; exact this.elim
          | cons sc scs => rw [hsc] at this; exact this.2.2.1
        have e : (UInt16.ofNat (names.findIdx (· = x))).toNat = names.findIdx (· = x) :=
          UInt16.toNat_ofNat_of_lt' (by simp [UInt16.size]; omega)
        show names[(UInt16.ofNat (names.findIdx (· = x))).toNat]? = _
        rw [e, List.getElem?_eq_getElem hlt]
        have := List.findIdx_getElem (w := hlt)
        simpa using this
      · rw [if_neg hx] at ha
        simp only [StepAgrees] at ha
        rw [ha.1] at h
        cases h

theorem resolveSymbolName_good {x : String} {s s' : State} {n : NodeId} {vs : VarStack} {ls : List OpenRegion}
    {fs : List Frame} (hi : Inv s vs ls fs) (h : resolveSymbolName x s = .ok n s') :
    Good [] fs (fun y => y = x) s s' vs ls fun _ imps => (envFor vs fs imps).symbol x = some n := by
  unfold resolveSymbolName at h
  rw [symrep_resolve s.symbols fs x hi.symbols] at h
  cases hl : SymSpec.lookup fs x with
  | some k =>
    rw [hl] at h
    cases h
    refine ⟨hi, Step.refl _, ?_, ?_⟩
    · intro y
      constructor
      · exact Or.inl
      · rintro (h | ⟨h, rfl⟩)
        · exact h
        · rw [hl] at h; cases h
    · intro m imps _
      simp only [Env.symbol, envFor, lookup_scopes, hl, Option.map_some]
  | none =>
    rw [hl] at h
    simp only at h
    cases hm : s.imports.lookup x with
    | some k =>
      rw [hm] at h
      cases h
      refine ⟨hi, Step.refl _, ?_, ?_⟩
      · intro y
        constructor
        · exact Or.inl
        · rintro (h | ⟨h, rfl⟩)
          · exact h
          · rw [List.lookup_eq_some_iff] at hm
            obtain ⟨l1, l2, e, _⟩ := hm
            rw [e]; simp
      · intro m imps hf
        simp only [Env.symbol, envFor, lookup_scopes, hl, Option.map_none]
        exact lookup_prefix hf.imports hm
    | none =>
      rw [hm] at h
      obtain ⟨id, s1, h1, h2⟩ := bind_ok h
      unfold insertNode at h1
      cases hid : newId s.nodes.length with
      | none => rw [hid] at h1; cases h1
      | some id' =>
        rw [hid] at h1
        cases h1
        cases h2
        obtain ⟨e1, e2⟩ := newId_some hid
        have hnot : x ∉ s.imports.map Prod.fst := by
          intro hc
          obtain ⟨p, hp, rfl⟩ := List.mem_map.1 hc
          rw [List.lookup_eq_none_iff] at hm
          have := hm p hp
          simp at this
        refine ⟨{ hi with varNodes := ?_, bound := ?_, nodes := ?_, importNames := ?_, importNodes := ?_ }, ⟨?_, ?_, Nat.le_refl _, fun _ _ => rfl, List.prefix_rfl,
            List.prefix_append _ _, ?_⟩, ?_, ?_⟩
        · intro v hv; have := hi.varNodes v hv; simp only [List.length_append, List.length_singleton]; omega
        · intro f hf b hb; have := hi.bound f hf b hb; simp only [List.length_append, List.length_singleton]; omega
        · simp only [List.length_append, List.length_singleton]; omega
        · rw [List.map_append, List.map_cons, List.map_nil, List.nodup_append]
          exact ⟨hi.importNames, by simp, by rintro a ha b hb rfl; simp at hb; subst hb; exact hnot ha⟩
        · intro p hp
          simp only [List.length_append, List.length_singleton]
          rcases List.mem_append.1 hp with hp | hp
          · have := hi.importNodes p hp; omega
          · simp at hp; subst hp; simp [e1]
        · simp
        · intro j hj _
          show (s.nodes ++ [importNode x])[j]? = _
          rw [List.getElem?_append_left hj]
        · intro p hp
          rcases List.mem_append.1 hp with hp | hp
          · exact Or.inl hp
          · simp at hp; subst hp; right; simp [e1]
        · intro y
          simp only [List.map_append, List.map_cons, List.map_nil, List.mem_append, List.mem_singleton]
          constructor
          · rintro (h | rfl)
            · exact Or.inl h
            · exact Or.inr ⟨hl, rfl⟩
          · rintro (h | ⟨_, rfl⟩)
            · exact Or.inl h
            · exact Or.inr rfl
        · intro m imps hf
          simp only [Env.symbol, envFor, lookup_scopes, hl, Option.map_none]
          refine lookup_prefix hf.imports ?_
          rw [List.lookup_append, hm]
          simp

theorem resolveLink_good {x : String} {s s' : State} {i : LinkIndex} {vs : VarStack} {ls : List OpenRegion}
    {fs : List Frame} (hi : Inv s vs ls fs) (h : resolveLink x s = .ok i s') :
    ∃ ls', LinkGrow [x] ls ls' ∧ Good [] fs (fun _ => False) s s' vs ls' fun _ _ =>
      ∀ names, headNames ls' <+: names → names[i.toNat]? = some x := by
  have ha := link_step_agrees s.links ls (.useLink x) hi.links trivial
  unfold resolveLink at h
  cases hr : s.links.useLink x with
  | none => rw [hr] at h; cases h
  | some o =>
    obtain ⟨t, out⟩ := o
    rw [hr] at h
    simp only [LinkTable.step, hr] at ha
    cases ls with
    | nil => exact ha.elim
    | cons f r =>
      simp only [LinkSpec.step] at ha
      by_cases hu : f.uses + 1 < 2 ^ 32
      · rw [if_pos hu] at ha
        simp only [StepAgrees] at ha
        obtain ⟨rfl, hrep⟩ := ha
        cases h
        have hnod := hi.linkNames f (by simp)
        refine ⟨_, ?_, { hi with links := hrep, linkRegions := ?_, linkNames := ?_, linkUses := ?_ },
          ⟨Nat.le_refl _, fun _ _ _ => rfl, Nat.le_refl _, fun _ _ => rfl, List.prefix_rfl, List.prefix_rfl,
            fun _ hp => Or.inl hp⟩, Frees.of_eq rfl, ?_⟩
        · refine ⟨rfl, rfl, ?_, ?_, by simp⟩
          · dsimp only
            split
            · exact List.prefix_rfl
            · exact List.prefix_append _ _
          · intro y
            dsimp only
            split
            · rename_i hx
              simp only [List.mem_singleton]
              exact ⟨Or.inl, fun h => h.elim id fun e => e ▸ hx⟩
            · simp
        · intro g hg
          rcases List.mem_cons.1 hg with rfl | hg
          · exact hi.linkRegions f (by simp)
          · exact hi.linkRegions g (by simp [hg])
        · intro g hg
          rcases List.mem_cons.1 hg with rfl | hg
          · dsimp only
            split
            · exact hnod
            · rename_i hx
              rw [List.nodup_append]
              exact ⟨hnod, by simp, by rintro a ha b hb rfl; simp at hb; subst hb; exact hx ha⟩
          · exact hi.linkNames g (by simp [hg])
        · intro g hg
          rcases List.mem_cons.1 hg with rfl | hg
          · exact hu
          · exact hi.linkUses g (by simp [hg])
        · intro m imps _ names hp
          simp only [headNames] at hp
          refine getElem?_prefix hp ?_
          generalize hN : (if x ∈ f.names then f.names else f.names ++ [x]) = N at hp hrep
          have hx : x ∈ N := by
            subst hN
            split
            · assumption
            · simp
          have hlt : N.findIdx (· = x) < N.length := List.findIdx_lt_length_of_exists ⟨x, hx, by simp⟩
          have hb : N.length < 2 ^ 32 := by
            cases hsc : t.scopes with
            | nil => rw [hsc] at hrep; exact hrep.elim
            | cons sc scs =>
              rw [hsc] at hrep
              have := hrep.2.2.2.1
              simp only at this
              omega
          have e : (UInt32.ofNat (N.findIdx (· = x))).toNat = N.findIdx (· = x) :=
            UInt32.toNat_ofNat_of_lt' (by simp [UInt32.size]; omega)
          rw [e, List.getElem?_eq_getElem hlt]
          have := List.findIdx_getElem (w := hlt)
          simpa using this
      · rw [if_neg hu] at ha
        exact ha.elim

theorem resolveLinks_good {vs : VarStack} {fs : List Frame} : ∀ {xs : List String} {s s' : State}
    {is : List LinkIndex} {ls : List OpenRegion}, Inv s vs ls fs → resolveLinks xs s = .ok is s' →
    ∃ ls', LinkGrow xs ls ls' ∧ Good [] fs (fun _ => False) s s' vs ls' fun _ _ =>
      ∀ names, headNames ls' <+: names → LinksAre names xs is
  | [], s, s', is, ls, hi, h => by
    cases h
    exact ⟨ls, LinkGrow.refl ls, (Good.refl hi).imp (fun _ => Iff.rfl) fun _ _ _ _ _ => trivial⟩
  | x :: xs, s, s', is, ls, hi, h => by
    obtain ⟨i, s1, h1, h⟩ := bind_ok h
    obtain ⟨is', s2, h2, h⟩ := bind_ok h
    cases h
    obtain ⟨ls1, g1, r1⟩ := resolveLink_good hi h1
    obtain ⟨ls2, g2, r2⟩ := resolveLinks_good r1.1 h2
    refine ⟨ls2, g1.trans g2, (r1.seq r2).imp (fun _ => by simp) fun m imps hr names hp => ?_⟩
    exact ⟨hr.1 names (g2.head.trans hp), hr.2 names hp⟩

end Verif.Resolve
