import Verif.Resolve.View
import Verif.Resolve.Spec
import Mathlib.Tactic.Common
/-!
# Tables that represent a module are viewed as this module
-/
namespace Verif.Resolve
open Verif
open Verif.Binary (NodeId LinkIndex RegionId TermId Literal)

/-- The nodes that names stand for have these names. -/
structure EnvOk (m : Binary.Module) (e : Env) : Prop where
  symbol : ∀ x n, e.symbol x = some n → ∃ N, m.nodes[n.toNat]? = some N ∧ tableSymbolName N.operation = some x
  vars : ∀ n names, e.vars = some (n, names) →
    ∃ N s, m.nodes[n.toNat]? = some N ∧ tableSymbol N.operation = some s ∧ names <+: s.params.map (·.name)

theorem toString_inj {a b : Nat} (h : toString a = toString b) : a = b := by
  have h2 : (toString a).toList = (toString b).toList := by rw [h]
  have e : ∀ n : Nat, (toString n).toList = Nat.toDigits 10 n := by
    intro n
    show (Nat.repr n).toList = _
    simp [Nat.repr]
  rw [e, e] at h2
  rw [← Nat.ofDigitChars_ten_toDigits (n := a), h2, Nat.ofDigitChars_ten_toDigits]

/-- The name that the view gives to a link. -/
def linkName (names : List String) (x : String) : String := toString (names.idxOf x)

theorem links_view {names : List String} (hn : names.Nodup) : ∀ {xs : List String} {is : List LinkIndex},
    LinksAre names xs is → is.map viewLink = xs.map (linkName names)
  | [], [], _ => rfl
  | x :: xs, i :: is, h => by
    obtain ⟨h1, h2⟩ := h
    rw [List.map_cons, List.map_cons, links_view hn h2]
    congr 1
    unfold viewLink linkName
    congr 1
    obtain ⟨hl, h1⟩ := List.getElem?_eq_some_iff.1 h1
    rw [← h1, hn.idxOf_getElem]
  | [], _ :: _, h => h.elim
  | _ :: _, [], h => h.elim

theorem linkName_inj {names : List String} {x y : String} (hx : x ∈ names)
    (h : linkName names x = linkName names y) : x = y := by
  have := toString_inj h
  have h1 := List.idxOf_lt_length_iff.2 hx
  have h2 : names.idxOf y < names.length := by omega
  have e1 := List.getElem_idxOf h1
  have e2 := List.getElem_idxOf h2
  rw [← e1, ← e2]
  congr 1

theorem le_succ_cases {F f : Nat} (h : F + 1 ≤ f) : ∃ g, f = g + 1 ∧ F ≤ g := by
  obtain _ | g := f
  · omega
  · exact ⟨g, rfl, by omega⟩

/-- A view succeeds with enough fuel. -/
def Views {α : Type} (P : α → Prop) (view : Nat → V α) : Prop := ∃ F a, P a ∧ ∀ f, F ≤ f → view f = .ok a

theorem Views.pure {α : Type} {P : α → Prop} {view : Nat → V α} (a : α) (ha : P a) (h : ∀ f, view f = .ok a) :
    Views P view := ⟨0, a, ha, fun f _ => h f⟩

theorem Views.bind {α β : Type} {P : α → Prop} {Q : β → Prop} {view : Nat → V α} {k : Nat → α → V β}
    (h : Views P view) (hk : ∀ a, P a → Views Q fun f => k f a) : Views Q fun f => (view f).bind (k f) := by
  obtain ⟨F, a, ha, h⟩ := h
  obtain ⟨G, b, hb, h2⟩ := hk a ha
  refine ⟨max F G, b, hb, fun f hf => ?_⟩
  have e := h f (by omega)
  simp only [e, V.bind]
  exact h2 f (by omega)

theorem Views.succ {α : Type} {P : α → Prop} {view view' : Nat → V α} (h : Views P view)
    (e : ∀ f, view' (f + 1) = view f) : Views P view' := by
  obtain ⟨F, a, ha, h⟩ := h
  refine ⟨F + 1, a, ha, fun f hf => ?_⟩
  obtain ⟨g, rfl, hg⟩ := le_succ_cases hf
  rw [e, h g hg]

theorem Views.imp {α : Type} {P Q : α → Prop} {view : Nat → V α} (h : Views P view) (i : ∀ a, P a → Q a) :
    Views Q view := by
  obtain ⟨F, a, ha, h⟩ := h
  exact ⟨F, a, i a ha, h⟩

theorem getTerm_eq {m : Binary.Module} (hm : m.terms.length ≤ 4294967295) {id : TermId} {t : Binary.Term}
    (h : m.terms[id.toNat]? = some t) : getTerm m id = some t := by
  unfold getTerm
  rw [if_pos, h]
  have := (List.getElem?_eq_some_iff.1 h).1
  omega

theorem simple_view (f : TermId → V Term) (k : Simple) : viewOperation f (simpleTable k) = .ok (.simple k) := by
  cases k <;> rfl

theorem declaration_view (f : TermId → V Term) (k : Declaration) (q : Binary.Symbol) :
    viewOperation f (declarationTable k q) = (viewSymbol f q).bind fun y => .ok (Operation.declare k y) := by
  cases k <;> rfl

theorem simple_symbol (k : Simple) : tableSymbol (simpleTable k) = none := by cases k <;> rfl
theorem simple_symbolName (k : Simple) : tableSymbolName (simpleTable k) = none := by cases k <;> rfl
theorem declaration_symbol (k : Declaration) (q : Binary.Symbol) : tableSymbol (declarationTable k q) = some q := by
  cases k <;> rfl
theorem declaration_symbolName (k : Declaration) (q : Binary.Symbol) :
    tableSymbolName (declarationTable k q) = some q.name := by cases k <;> rfl

theorem repParams_names {m : Binary.Module} {e : Env} {id : NodeId} :
    ∀ {ps : List Param} {qs : List Binary.Param} {before : List String}, RepParams m e id before ps qs →
      qs.map (·.name) = ps.map Param.name
  | [], [], _, _ => rfl
  | p :: ps, q :: qs, before, h => by
    simp only [RepParams] at h
    rw [List.map_cons, List.map_cons, repParams_names h.2.2]
    congr 1
    cases p
    simp only [RepParam] at h
    exact h.1.1
  | [], _ :: _, _, h => by simp only [RepParams] at h
  | _ :: _, [], _, h => by simp only [RepParams] at h

theorem repSymbol_name {m : Binary.Module} {e : Env} {id : NodeId} {y : Symbol} {q : Binary.Symbol}
    (h : RepSymbol m e id y q) : q.name = y.name ∧ q.params.map (·.name) = y.params.map Param.name := by
  cases y
  simp only [RepSymbol] at h
  exact ⟨h.2.1, repParams_names h.2.2.1⟩

/-- The operation of the table introduces the same symbol. -/
theorem repOperation_symbol {m : Binary.Module} {e : Env} {id : NodeId} {o : Operation} {o' : Binary.Operation}
    (h : RepOperation m e id o o') : tableSymbolName o' = o.symbolName ∧
      ∀ y, o.symbol = some y → ∃ q, tableSymbol o' = some q ∧ q.params.map (·.name) = y.params.map Param.name := by
  cases o with
  | simple k => simp only [RepOperation] at h; subst h; exact ⟨simple_symbolName k, by intro y hy; cases hy⟩
  | defineFunc y =>
    simp only [RepOperation] at h
    obtain ⟨q, rfl, h⟩ := h
    exact ⟨congrArg some (repSymbol_name h).1, fun y' hy => by cases hy; exact ⟨q, rfl, (repSymbol_name h).2⟩⟩
  | declare k y =>
    simp only [RepOperation] at h
    obtain ⟨q, rfl, h⟩ := h
    exact ⟨(declaration_symbolName k q).trans (congrArg some (repSymbol_name h).1),
      fun y' hy => by cases hy; exact ⟨q, declaration_symbol k q, (repSymbol_name h).2⟩⟩
  | defineAlias y t =>
    simp only [RepOperation] at h
    obtain ⟨q, tid, rfl, h, _⟩ := h
    exact ⟨congrArg some (repSymbol_name h).1, fun y' hy => by cases hy; exact ⟨q, rfl, (repSymbol_name h).2⟩⟩
  | custom t =>
    simp only [RepOperation] at h
    obtain ⟨_, rfl, _⟩ := h
    exact ⟨rfl, by intro y hy; cases hy⟩
  | «import» x => simp only [RepOperation] at h; subst h; exact ⟨rfl, by intro y hy; cases hy⟩

theorem EnvOk.withVars {m : Binary.Module} {e : Env} (h : EnvOk m e) {id : NodeId} {names : List String}
    {N : Binary.Node} {q : Binary.Symbol} (hN : m.nodes[id.toNat]? = some N) (hq : tableSymbol N.operation = some q)
    (hp : names <+: q.params.map (·.name)) : EnvOk m { e with vars := some (id, names) } := by
  refine ⟨h.symbol, fun n ns he => ?_⟩
  cases he
  exact ⟨N, q, hN, hq, hp⟩

theorem introduced_name {m : Binary.Module} {e : Env} {names : List String} : ∀ {cs : List Node} {ids : List NodeId},
    RepNodes m e names cs ids → ∀ x n, (introduced cs ids).lookup x = some n →
      ∃ N, m.nodes[n.toNat]? = some N ∧ tableSymbolName N.operation = some x
  | [], [], _, x, n, hl => by cases hl
  | c :: cs, id :: ids, h, x, n, hl => by
    simp only [RepNodes] at h
    obtain ⟨hc, h⟩ := h
    simp only [introduced] at hl
    cases ho : c.operation.symbolName with
    | none => rw [ho] at hl; exact introduced_name h x n hl
    | some y =>
      rw [ho] at hl
      simp only [List.lookup_cons] at hl
      cases hxy : x == y with
      | false => rw [hxy] at hl; exact introduced_name h x n hl
      | true =>
        rw [hxy] at hl
        cases hl
        cases beq_iff_eq.1 hxy
        cases c
        simp only [RepNode] at hc
        obtain ⟨N, hN, _, _, ho', _⟩ := hc
        exact ⟨N, hN, (repOperation_symbol ho').1.trans ho⟩
  | [], _ :: _, h, _, _, _ => by simp only [RepNodes] at h
  | _ :: _, [], h, _, _, _ => by simp only [RepNodes] at h

theorem EnvOk.enter {m : Binary.Module} {e e' : Env} (h : EnvOk m e) {names : List String} {cs : List Node}
    {ids : List NodeId} (hc : RepNodes m e' names cs ids) :
    EnvOk m { e with scopes := introduced cs ids :: e.scopes } := by
  refine ⟨fun x n hx => ?_, h.vars⟩
  simp only [Env.symbol, lookupScopes] at hx
  cases hl : (introduced cs ids).lookup x with
  | some k =>
    rw [hl] at hx
    cases hx
    exact introduced_name hc x n hl
  | none =>
    rw [hl] at hx
    exact h.symbol x n hx

section
variable {m : Binary.Module} (hm : m.terms.length ≤ 4294967295)
include hm

mutual
theorem term_view : ∀ (t : Term) (e : Env) (id : TermId), EnvOk m e → RepTerm m e t id →
    Views (SameTerm t) fun f => viewTerm m f id
  | .wildcard, e, id, he, h => by
    simp only [RepTerm] at h
    refine Views.succ (Views.pure (view := fun _ => .ok .wildcard) .wildcard (by simp only [SameTerm]) fun _ => rfl)
      fun f => ?_
    simp only [viewTerm, getTerm_eq hm h]
  | .var x, e, id, he, h => by
    simp only [RepTerm] at h
    obtain ⟨n, i, names, h, hv, hi⟩ := h
    refine Views.succ (Views.pure (view := fun _ => .ok (.var x)) (.var x) (by simp only [SameTerm]) fun _ => rfl)
      fun f => ?_
    obtain ⟨N, s, hN, hs, ⟨more, hp⟩⟩ := he.vars n names hv
    have hi2 : (s.params.map (·.name))[i.toNat]? = some x := by
      rw [← hp, List.getElem?_append_left (List.getElem?_eq_some_iff.1 hi).1, hi]
    rw [List.getElem?_map] at hi2
    cases hq : s.params[i.toNat]? with
    | none => rw [hq] at hi2; cases hi2
    | some q =>
      rw [hq] at hi2
      simp only [Option.map_some, Option.some.injEq] at hi2
      simp only [viewTerm, getTerm_eq hm h, viewVar, hN, hs, hq, hi2, V.bind]
  | .apply x ts, e, id, he, h => by
    simp only [RepTerm] at h
    obtain ⟨n, ids, h, hx, hts⟩ := h
    refine Views.succ (Views.bind (terms_view ts e ids he hts) (k := fun _ ts => .ok (.apply x ts)) fun ts' hs =>
      Views.pure (.apply x ts') (by simp only [SameTerm]; exact ⟨ts', rfl, hs⟩) fun _ => rfl) fun f => ?_
    obtain ⟨N, hN, hs⟩ := he.symbol x n hx
    simp only [viewTerm, getTerm_eq hm h, viewSymbolName, hN, hs, V.bind]
  | .list ps, e, id, he, h => by
    simp only [RepTerm] at h
    obtain ⟨ids, h, hps⟩ := h
    refine Views.succ (Views.bind (parts_view ps e ids he hps) (k := fun _ ps => .ok (.list ps)) fun ps' hs =>
      Views.pure (.list ps') (by simp only [SameTerm]; exact ⟨ps', rfl, hs⟩) fun _ => rfl) fun f => ?_
    simp only [viewTerm, getTerm_eq hm h]
  | .literal l, e, id, he, h => by
    simp only [RepTerm] at h
    obtain ⟨l', h, hl⟩ := h
    refine Views.succ (Views.pure (view := fun _ => .ok (.literal l')) (.literal l')
      (by simp only [SameTerm]; exact ⟨l', rfl, hl⟩) fun _ => rfl) fun f => ?_
    simp only [viewTerm, getTerm_eq hm h]
  | .tuple ps, e, id, he, h => by
    simp only [RepTerm] at h
    obtain ⟨ids, h, hps⟩ := h
    refine Views.succ (Views.bind (parts_view ps e ids he hps) (k := fun _ ps => .ok (.tuple ps)) fun ps' hs =>
      Views.pure (.tuple ps') (by simp only [SameTerm]; exact ⟨ps', rfl, hs⟩) fun _ => rfl) fun f => ?_
    simp only [viewTerm, getTerm_eq hm h]
  | .func r, e, id, he, h => by
    simp only [RepTerm] at h
    obtain ⟨rid, h, hr⟩ := h
    refine Views.succ (Views.bind (region_view r e none rid he (fun _ hc => by cases hc) hr)
      (k := fun _ r => .ok (.func r)) fun r' hs =>
      Views.pure (.func r') (by simp only [SameTerm]; exact ⟨r', rfl, hs⟩) fun _ => rfl) fun f => ?_
    simp only [viewTerm, getTerm_eq hm h]
termination_by structural t => t
theorem terms_view : ∀ (ts : List Term) (e : Env) (ids : List TermId), EnvOk m e → RepTerms m e ts ids →
    Views (SameTerms ts) fun f => collect (viewTerm m f) ids
  | [], e, [], he, h => Views.pure [] (by simp only [SameTerms]) fun _ => rfl
  | t :: ts, e, id :: ids, he, h => by
    simp only [RepTerms] at h
    exact Views.bind (term_view t e id he h.1) fun t' ht =>
      Views.bind (terms_view ts e ids he h.2) (k := fun _ ts' => .ok (t' :: ts')) fun ts' hts =>
        Views.pure (t' :: ts') (by simp only [SameTerms]; exact ⟨ht, hts⟩) fun _ => rfl
  | [], _, _ :: _, _, h => by simp only [RepTerms] at h
  | _ :: _, _, [], _, h => by simp only [RepTerms] at h
termination_by structural t => t
theorem option_view : ∀ (t : Option Term) (e : Env) (id : Option TermId), EnvOk m e → RepOption m e t id →
    Views (SameOption t) fun f => collectOption (viewTerm m f) id
  | none, e, none, he, h => Views.pure none (by simp only [SameOption]) fun _ => rfl
  | some t, e, some id, he, h => by
    simp only [RepOption] at h
    exact Views.bind (term_view t e id he h) (k := fun _ t' => .ok (some t')) fun t' ht =>
        Views.pure (some t') (by simp only [SameOption]; exact ht) fun _ => rfl
  | none, _, some _, _, h => by simp only [RepOption] at h
  | some _, _, none, _, h => by simp only [RepOption] at h
termination_by structural t => t
theorem part_view : ∀ (p : SeqPart) (e : Env) (q : Binary.SeqPart), EnvOk m e → RepPart m e p q →
    Views (SamePart p) fun f => viewPart (viewTerm m f) q
  | .item t, e, .item id, he, h => by
    simp only [RepPart] at h
    exact Views.bind (term_view t e id he h) (k := fun _ t' => .ok (SeqPart.item t')) fun t' ht =>
        Views.pure (SeqPart.item t') (by simp only [SamePart]; exact ht) fun _ => rfl
  | .splice t, e, .splice id, he, h => by
    simp only [RepPart] at h
    exact Views.bind (term_view t e id he h) (k := fun _ t' => .ok (SeqPart.splice t')) fun t' ht =>
        Views.pure (SeqPart.splice t') (by simp only [SamePart]; exact ht) fun _ => rfl
  | .item _, _, .splice _, _, h => by simp only [RepPart] at h
  | .splice _, _, .item _, _, h => by simp only [RepPart] at h
termination_by structural t => t
theorem parts_view : ∀ (ps : List SeqPart) (e : Env) (qs : List Binary.SeqPart), EnvOk m e → RepParts m e ps qs →
    Views (SameParts ps) fun f => collect (viewPart (viewTerm m f)) qs
  | [], e, [], he, h => Views.pure [] (by simp only [SameParts]) fun _ => rfl
  | t :: ts, e, id :: ids, he, h => by
    simp only [RepParts] at h
    exact Views.bind (part_view t e id he h.1) fun t' ht =>
      Views.bind (parts_view ts e ids he h.2) (k := fun _ ts' => .ok (t' :: ts')) fun ts' hts =>
        Views.pure (t' :: ts') (by simp only [SameParts]; exact ⟨ht, hts⟩) fun _ => rfl
  | [], _, _ :: _, _, h => by simp only [RepParts] at h
  | _ :: _, _, [], _, h => by simp only [RepParts] at h
termination_by structural t => t
theorem param_view : ∀ (p : Param) (e : Env) (q : Binary.Param), EnvOk m e → RepParam m e p q →
    Views (SameParam p) fun f => viewParam (viewTerm m f) q
  | .mk x t, e, q, he, h => by
    simp only [RepParam] at h
    exact Views.bind (term_view t e q.type he h.2) (k := fun _ t' => .ok (Param.mk q.name t')) fun t' ht =>
        Views.pure (Param.mk q.name t') (by simp only [SameParam]; exact ⟨h.1, ht⟩) fun _ => rfl
termination_by structural t => t
theorem params_view : ∀ (ps : List Param) (e : Env) (id : NodeId) (before : List String) (qs : List Binary.Param),
    EnvOk m e → RepParams m e id before ps qs →
    (∃ N s, m.nodes[id.toNat]? = some N ∧ tableSymbol N.operation = some s ∧
      before ++ ps.map Param.name <+: s.params.map (·.name)) →
    Views (SameParams ps) fun f => collect (viewParam (viewTerm m f)) qs
  | [], _, _, _, [], _, _, _ => Views.pure [] (by simp only [SameParams]) fun _ => rfl
  | p :: ps, e, id, before, q :: qs, he, h, ⟨N, s, hN, hs, hp⟩ => by
    simp only [RepParams] at h
    obtain ⟨h1, _, h2⟩ := h
    have he2 : EnvOk m { e with vars := some (id, before) } :=
      he.withVars hN hs ((List.prefix_append _ _).trans hp)
    exact Views.bind (param_view p _ q he2 h1) fun t' ht =>
      Views.bind (params_view ps e id (before ++ [p.name]) qs he h2 ⟨N, s, hN, hs, by simpa using hp⟩)
        (k := fun _ ts' => .ok (t' :: ts')) fun ts' hts =>
        Views.pure (t' :: ts') (by simp only [SameParams]; exact ⟨ht, hts⟩) fun _ => rfl
  | [], _, _, _, _ :: _, _, h, _ => by simp only [RepParams] at h
  | _ :: _, _, _, _, [], _, h, _ => by simp only [RepParams] at h
termination_by structural t => t
theorem symbol_view : ∀ (y : Symbol) (e : Env) (id : NodeId) (q : Binary.Symbol), EnvOk m e →
    RepSymbol m e id y q → (∃ N s, m.nodes[id.toNat]? = some N ∧ tableSymbol N.operation = some s ∧
      y.params.map Param.name <+: s.params.map (·.name)) →
    Views (SameSymbol y) fun f => viewSymbol (viewTerm m f) q
  | .mk v x ps cs t, e, id, q, he, h, ⟨N, s, hN, hs, hp⟩ => by
    simp only [RepSymbol] at h
    obtain ⟨hv, hx, hps, hcs, ht⟩ := h
    simp only [Symbol.params] at hp
    have he2 := he.withVars hN hs hp
    refine Views.bind (params_view ps e id [] q.params he hps ⟨N, s, hN, hs, by simpa using hp⟩) fun ps' h1 => ?_
    refine Views.bind (terms_view cs _ q.constraints he2 hcs) fun cs' h2 => ?_
    refine Views.bind (term_view t _ q.signature he2 ht) (k := fun _ t' => .ok (Symbol.mk q.visibility q.name ps' cs' t'))
      fun t' h3 => ?_
    exact Views.pure _ (by simp only [SameSymbol]; exact ⟨hv, hx, h1, h2, h3⟩) fun _ => rfl
termination_by structural t => t
theorem operation_view : ∀ (o : Operation) (e : Env) (id : NodeId) (o' : Binary.Operation), EnvOk m e →
    RepOperation m e id o o' → (∃ N, m.nodes[id.toNat]? = some N ∧ N.operation = o') →
    Views (SameOperation o) fun f => viewOperation (viewTerm m f) o'
  | .simple k, e, id, o', he, h, _ => by
    simp only [RepOperation] at h
    subst h
    exact Views.pure (.simple k) (by simp only [SameOperation]) fun _ => simple_view _ k
  | .defineFunc y, e, id, o', he, h, ⟨N, hN, ho⟩ => by
    have hs := (repOperation_symbol h).2 y rfl
    simp only [RepOperation] at h
    obtain ⟨q, rfl, h⟩ := h
    obtain ⟨s, hs, hp⟩ := hs
    exact Views.bind (symbol_view y e id q he h ⟨N, s, hN, by rw [ho]; exact hs, hp ▸ List.prefix_rfl⟩)
      (k := fun _ y => .ok (Operation.defineFunc y)) fun y' hy =>
        Views.pure (Operation.defineFunc y') (by simp only [SameOperation]; exact ⟨y', rfl, hy⟩) fun _ => rfl
  | .declare k y, e, id, o', he, h, ⟨N, hN, ho⟩ => by
    have hs := (repOperation_symbol h).2 y rfl
    simp only [RepOperation] at h
    obtain ⟨q, rfl, h⟩ := h
    obtain ⟨s, hs, hp⟩ := hs
    simp only [declaration_view]
    exact Views.bind (symbol_view y e id q he h ⟨N, s, hN, by rw [ho]; exact hs, hp ▸ List.prefix_rfl⟩)
      (k := fun _ y => .ok (Operation.declare k y)) fun y' hy =>
        Views.pure (Operation.declare k y') (by simp only [SameOperation]; exact ⟨y', rfl, hy⟩) fun _ => rfl
  | .defineAlias y t, e, id, o', he, h, ⟨N, hN, ho⟩ => by
    have hs := (repOperation_symbol h).2 y rfl
    simp only [RepOperation] at h
    obtain ⟨q, tid, rfl, h, ht⟩ := h
    obtain ⟨s, hs, hp⟩ := hs
    have hs' : tableSymbol N.operation = some s := by rw [ho]; exact hs
    refine Views.bind (symbol_view y e id q he h ⟨N, s, hN, hs', hp ▸ List.prefix_rfl⟩) fun y' hy => ?_
    exact Views.bind (term_view t _ tid (he.withVars hN hs' (hp ▸ List.prefix_rfl)) ht)
      (k := fun _ t' => .ok (Operation.defineAlias y' t')) fun t' ht =>
        Views.pure (Operation.defineAlias y' t') (by simp only [SameOperation]; exact ⟨y', t', rfl, hy, ht⟩) fun _ => rfl
  | .custom t, e, id, o', he, h, _ => by
    simp only [RepOperation] at h
    obtain ⟨tid, rfl, h⟩ := h
    exact Views.bind (term_view t e tid he h) (k := fun _ t' => .ok (Operation.custom t')) fun t' ht =>
        Views.pure (Operation.custom t') (by simp only [SameOperation]; exact ⟨t', rfl, ht⟩) fun _ => rfl
  | .import x, e, id, o', he, h, _ => by
    simp only [RepOperation] at h
    subst h
    exact Views.pure (.import x) (by simp only [SameOperation]) fun _ => rfl
termination_by structural t => t
theorem node_view : ∀ (n : Node) (e : Env) (names : List String) (id : NodeId), EnvOk m e → names.Nodup →
    RepNode m e names n id → Views (SameNode (linkName names) n) fun f => viewNode m f id
  | .mk o ins outs rs ms sig, e, names, id, he, hn, h => by
    simp only [RepNode] at h
    obtain ⟨N, hN, hi, ho, hop, hms, hsig, hrs⟩ := h
    have he2 : EnvOk m (e.inside id o) := by
      unfold Env.inside
      cases hy : o.symbol with
      | none => exact he
      | some y =>
        obtain ⟨s, hs, hp⟩ := (repOperation_symbol hop).2 y hy
        exact he.withVars hN hs (hp ▸ List.prefix_rfl)
    refine Views.succ (view := fun f => (viewOperation (viewTerm m f) N.operation).bind fun o =>
      (collect (viewTerm m f) N.meta).bind fun ms => (collectOption (viewTerm m f) N.signature).bind fun sig =>
      (collect (viewRegion m f) N.regions).bind fun rs =>
        .ok (.mk o (N.inputs.map viewLink) (N.outputs.map viewLink) rs ms sig)) ?_
      fun f => by simp only [viewNode, hN]
    refine Views.bind (operation_view o e id N.operation he hop ⟨N, hN, rfl⟩) fun o' h1 => ?_
    refine Views.bind (terms_view ms _ N.meta he2 hms) fun ms' h2 => ?_
    refine Views.bind (option_view sig _ N.signature he2 hsig) fun sig' h3 => ?_
    refine Views.bind (regions_view rs _ _ N.regions he2 (fun ns hc => ?_) hrs) fun rs' h4 =>
      Views.pure _ ?_ fun _ => rfl
    · split at hc
      · cases hc
      · cases hc; exact hn
    · simp only [SameNode]
      refine ⟨o', rs', ms', sig', by rw [links_view hn hi, links_view hn ho], h1, h2, h3, ?_⟩
      revert h4
      cases o <;> exact fun h => h
termination_by structural t => t
theorem nodes_view : ∀ (ns : List Node) (e : Env) (names : List String) (ids : List NodeId), EnvOk m e → names.Nodup →
    RepNodes m e names ns ids → Views (SameNodes (linkName names) ns) fun f => collect (viewNode m f) ids
  | [], _, _, [], _, _, _ => Views.pure [] (by simp only [SameNodes]) fun _ => rfl
  | n :: ns, e, names, id :: ids, he, hn, h => by
    simp only [RepNodes] at h
    exact Views.bind (node_view n e names id he hn h.1) fun t' ht =>
      Views.bind (nodes_view ns e names ids he hn h.2) (k := fun _ ts' => .ok (t' :: ts')) fun ts' hts =>
        Views.pure (t' :: ts') (by simp only [SameNodes]; exact ⟨ht, hts⟩) fun _ => rfl
  | [], _, _, _ :: _, _, _, h => by simp only [RepNodes] at h
  | _ :: _, _, _, [], _, _, h => by simp only [RepNodes] at h
termination_by structural t => t
theorem region_view : ∀ (r : Region) (e : Env) (outer : Option (List String)) (id : RegionId), EnvOk m e →
    (∀ names, outer = some names → names.Nodup) → RepRegion m e outer r id →
    Views (SameRegion (outer.map linkName) r) fun f => viewRegion m f id
  | .mk k srcs tgts cs ms sig, e, outer, id, he, hn, h => by
    simp only [RepRegion] at h
    obtain ⟨r, names, hr, hk, hms, hsig, hscope, hsrc, htgt, _, hcs⟩ := h
    have hnn : names.Nodup := by
      cases outer with
      | none => exact hscope.1
      | some around => rw [hscope.1]; exact hn around rfl
    refine Views.succ (view := fun f => (collect (viewTerm m f) r.meta).bind fun ms =>
      (collect (viewNode m f) r.children).bind fun cs =>
      (collectOption (viewTerm m f) r.signature).bind fun sig =>
        .ok (.mk r.kind (r.sources.map viewLink) (r.targets.map viewLink) cs ms sig)) ?_
      fun f => by simp only [viewRegion, hr]
    refine Views.bind (terms_view ms _ r.meta he hms) fun ms' h1 => ?_
    refine Views.bind (nodes_view cs _ names r.children (he.enter hcs) hnn hcs) fun cs' h2 => ?_
    refine Views.bind (option_view sig _ r.signature he hsig) fun sig' h3 => Views.pure _ ?_ fun _ => rfl
    simp only [SameRegion]
    refine ⟨linkName names, cs', ms', sig', ?_, by rw [hk, links_view hnn hsrc, links_view hnn htgt], h2, h1, h3⟩
    cases outer with
    | none => exact fun x hx y _ hxy => linkName_inj ((hscope.2.1 x).2 hx) hxy
    | some around => rw [hscope.1]; rfl
termination_by structural t => t
theorem regions_view : ∀ (rs : List Region) (e : Env) (outer : Option (List String)) (ids : List RegionId), EnvOk m e →
    (∀ names, outer = some names → names.Nodup) → RepRegions m e outer rs ids →
    Views (SameRegions (outer.map linkName) rs) fun f => collect (viewRegion m f) ids
  | [], _, _, [], _, _, _ => Views.pure [] (by simp only [SameRegions]) fun _ => rfl
  | r :: rs, e, outer, id :: ids, he, hn, h => by
    simp only [RepRegions] at h
    exact Views.bind (region_view r e outer id he hn h.1) fun t' ht =>
      Views.bind (regions_view rs e outer ids he hn h.2) (k := fun _ ts' => .ok (t' :: ts')) fun ts' hts =>
        Views.pure (t' :: ts') (by simp only [SameRegions]; exact ⟨ht, hts⟩) fun _ => rfl
  | [], _, _, _ :: _, _, _, h => by simp only [RepRegions] at h
  | _ :: _, _, _, [], _, _, h => by simp only [RepRegions] at h
termination_by structural t => t
end
end

end Verif.Resolve
