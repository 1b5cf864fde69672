import Verif.Validate.Props

/-!
# The errors that validation reports are there
-/
namespace Verif.Validate

open Verif.Graph Verif.Ops Verif.Types Verif.Passes

variable {Meta : Type}

/-- What an error says. -/
def Reports (C : Context) (h : Hugr Ops.Op Meta) : VError → Prop
  | .rootNotRoot => False
  | .noParent _ => False
  | .wrongNumberOfPorts n dir actual expected => h.live n = true ∧ actual ≠ expected ∧
      match dir with
      | .incoming => actual = h.ins n ∧ expected = ((h.ops n).ports .incoming).length
      | .outgoing => actual = h.outs n ∧ expected = ((h.ops n).ports .outgoing).length
  | .unconnectedPort n .incoming port => h.live n = true ∧ linksTo h n port = [] ∧
      ∃ kind, ((h.ops n).ports .incoming)[port]? = some kind ∧ ¬ InDegreeOk kind 0
  | .unconnectedPort n .outgoing port => h.live n = true ∧ linksFrom h n port = [] ∧
      ∃ kind, ((h.ops n).ports .outgoing)[port]? = some kind ∧ ¬ OutDegreeOk kind 0
  | .tooManyConnections n .incoming port => h.live n = true ∧ 2 ≤ (linksTo h n port).length ∧
      ∃ kind, ((h.ops n).ports .incoming)[port]? = some kind ∧
        ¬ InDegreeOk kind (linksTo h n port).length
  | .tooManyConnections n .outgoing port => h.live n = true ∧ 2 ≤ (linksFrom h n port).length ∧
      ∃ kind, ((h.ops n).ports .outgoing)[port]? = some kind ∧
        ¬ OutDegreeOk kind (linksFrom h n port).length
  | .incompatiblePorts l => l ∈ h.links ∧
      srcKind h l ≠ ((h.ops l.dst).ports .incoming)[l.dstPort]?
  | .invalidParentOp c p => h.hier.parent c = some p ∧ ¬ MayContain (h.ops p) (h.ops c)
  | .invalidInitialChild p first => ∃ c, (h.children p)[if first then 0 else 1]? = some c ∧
      ((∃ sig, h.ops p = .cfg sig ∧
          if first then ∀ i o r, h.ops c ≠ .dataflowBlock i o r else ∀ o, h.ops c ≠ .exitBlock o) ∨
       ((body (h.ops p)).isSome = true ∧
          if first then ∀ ts, h.ops c ≠ .input ts else ∀ ts, h.ops c ≠ .output ts))
  | .conditionalSum p => ∃ rows other outs, h.ops p = .conditional rows other outs ∧
      rows.length ≠ (h.children p).length
  | .caseSignature p c => ∃ (rows : List (List Ty)) (other outs : List Ty) (k : Nat) (sig : Signature) (row : List Ty),
      h.ops p = .conditional rows other outs ∧
      (h.children p)[k]? = some c ∧ h.ops c = .case sig ∧ rows[k]? = some row ∧
      sig ≠ ⟨row ++ other, outs⟩
  | .ioSignature p c =>
      (∃ sig, h.ops p = .cfg sig ∧
        (((h.children p)[0]? = some c ∧ ∃ i o r, h.ops c = .dataflowBlock i o r ∧ i ≠ sig.input) ∨
         ((h.children p)[1]? = some c ∧ ∃ o, h.ops c = .exitBlock o ∧ o ≠ sig.output))) ∨
      (∃ i o, body (h.ops p) = some (i, o) ∧
        (((h.children p)[0]? = some c ∧ ∃ ts, h.ops c = .input ts ∧ ts ≠ i) ∨
         ((h.children p)[1]? = some c ∧ ∃ ts, h.ops c = .output ts ∧ ts ≠ o)))
  | .internalExit p c => ∃ sig a b rest o, h.ops p = .cfg sig ∧ h.children p = a :: b :: rest ∧
      c ∈ rest ∧ h.ops c = .exitBlock o
  | .internalIO p c => ∃ a b rest, (body (h.ops p)).isSome = true ∧ h.children p = a :: b :: rest ∧
      c ∈ rest ∧ IsIO (h.ops c)
  | .duplicateExport a b => a ≠ b ∧ ∃ name siga sigb da db, Exports C h a name siga da ∧
      Exports C h b name sigb db ∧ ¬ (siga = sigb ∧ da = false ∧ db = false)
  | .cfgEdge p l => (∃ sig, h.ops p = .cfg sig) ∧ l ∈ h.links ∧ l.src ∈ h.children p ∧
      l.dst ∈ h.children p ∧ ¬ BlockLinkOk h l
  | .nonContainerWithChildren n => ¬ Container (h.ops n) ∧ h.children n ≠ []
  | .containerWithoutChildren n => Container (h.ops n) ∧ h.ops n ≠ .module ∧ h.children n = []
  | .notADag n => (body (h.ops n)).isSome = true ∧ ∃ m, Relation.TransGen (RegionEdge h n) m m
  | .nonCopyableData l => l ∈ h.links ∧ h.hier.parent l.src ≠ h.hier.parent l.dst ∧
      ∃ kind, srcKind h l = some kind ∧ kind.isStatic = false ∧
        ∀ t, kind = .value t → t.copyable = false
  | .noRelation l | .nonCfgAncestor l => l ∈ h.links ∧
      ∃ kind, srcKind h l = some kind ∧ ¬ EdgeOk h l kind
  | .missingOrderEdge l a => l ∈ h.links ∧ Above h.hier.parent l.dst a ∧
      h.hier.parent a = h.hier.parent l.src ∧
      (∀ o ∈ h.links, o.src = l.src → o.dst = a → srcKind h o ≠ some .stateOrder) ∧
      ∃ kind, srcKind h l = some kind ∧ ¬ EdgeOk h l kind
  | .nonDominatedAncestor l a => l ∈ h.links ∧ Above h.hier.parent l.dst a ∧
      ∃ kind p g sig entry rest, srcKind h l = some kind ∧ ¬ EdgeOk h l kind ∧
      h.hier.parent l.src = some p ∧ h.hier.parent p = some g ∧ h.hier.parent a = some g ∧
      h.ops g = .cfg sig ∧ h.children g = entry :: rest ∧
      ¬ Dominates (RegionEdge h g) entry p a
  | .signature n => ∃ decls, DeclsAt h n decls ∧
      ¬ (ArgsOk C decls (h.ops n) ∧ ∀ kind ∈ (h.ops n).ports .outgoing, KindOk C decls kind)
  | .constType n => ∃ t, h.ops n = .const t ∧ C.constOk n = false
  | .entrypointNotContainer n => n = h.entrypoint ∧ ¬ Container (h.ops n)

theorem andThen_error (a b : Verdict) (e : VError) :
    a.andThen b = .error e ↔ a = .error e ∨ (a = .ok ∧ b = .error e) := by
  cases a <;> simp [Verdict.andThen]

theorem check_error (b : Bool) (e e' : VError) : check b e = .error e' ↔ b = false ∧ e = e' := by
  unfold check; cases b <;> simp

theorem forAll_error {α : Type} {f : α → Verdict} {l : List α} {e : VError}
    (h : forAll f l = .error e) : ∃ a ∈ l, f a = .error e := by
  induction l with
  | nil => simp [forAll] at h
  | cons a l ih =>
    rw [forAll, andThen_error] at h
    rcases h with h | ⟨-, h⟩
    · exact ⟨a, by simp, h⟩
    · obtain ⟨b, hb, h⟩ := ih h
      exact ⟨b, List.mem_cons_of_mem _ hb, h⟩

/-! ## Nodes -/

theorem validatePortCount_error {C : Context} {h : Hugr Ops.Op Meta} {n : Nat} {dir : Graph.Dir}
    {e : VError} (hn : h.live n = true) (he : validatePortCount h n dir = .error e) : Reports C h e := by
  unfold validatePortCount at he
  by_cases ht : (h.ops n).tagOk = true
  · rw [C10_port_count _ _ ht] at he
    simp only [check_error, decide_eq_false_iff_not] at he
    obtain ⟨h1, rfl⟩ := he
    cases dir
    · exact ⟨hn, h1, rfl, rfl⟩
    · exact ⟨hn, h1, rfl, rfl⟩
  · have ht' : (h.ops n).tagOk = false := by simpa using ht
    rw [(C10_invalid_tag_panics _ _ ht').1] at he
    cases he

theorem validateParent_error {C : Context} {h : Hugr Ops.Op Meta} (ht : IsTree h) {n : Nat}
    {e : VError} (hn : h.live n = true) (he : validateParent h n = .error e) : Reports C h e := by
  unfold validateParent at he
  split at he
  · cases he
  · rename_i hr
    rw [getParent_eq ht] at he
    obtain ⟨p, hp⟩ := ht.has_parent n hn hr
    rw [hp] at he
    simp only [check_error] at he
    obtain ⟨h1, rfl⟩ := he
    refine ⟨hp, fun hm => ?_⟩
    rw [(contains_iff _ _).2 hm] at h1
    cases h1

theorem validateEntrypoint_error {C : Context} {h : Hugr Ops.Op Meta} {n : Nat}
    {e : VError} (he : validateEntrypoint h n = .error e) : Reports C h e := by
  unfold validateEntrypoint at he
  split at he
  · rename_i hr
    rw [check_error] at he
    obtain ⟨h1, rfl⟩ := he
    refine ⟨hr, fun hc => ?_⟩
    rw [(container_iff _).2 hc] at h1
    cases h1
  · cases he

theorem validateConst_error {C : Context} {h : Hugr Ops.Op Meta} {n : Nat}
    {e : VError} (he : validateConst C n (h.ops n) = .error e) : Reports C h e := by
  cases ho : h.ops n <;> simp only [ho, validateConst, check_error, reduceCtorEq] at he
  obtain ⟨h1, rfl⟩ := he
  exact ⟨_, ho, h1⟩

theorem validateCases_error {C : Context} {h : Hugr Ops.Op Meta} {n : Nat} {rows : List (List Ty)}
    {other outs : List Ty} {e : VError} (ho : h.ops n = .conditional rows other outs) :
    ∀ (cs done : List Nat), h.children n = done ++ cs →
      validateCases h n (.conditional rows other outs) outs done.length cs = .error e →
      Reports C h e := by
  intro cs
  induction cs with
  | nil => intro done _ he; simp [validateCases] at he
  | cons c cs ih =>
    intro done hd he
    rw [validateCases, andThen_error] at he
    rcases he with he | ⟨-, he⟩
    · simp only [Op.caseInputRow] at he
      cases hr : rows[done.length]? with
      | none => rw [hr] at he; cases hc : h.ops c <;> simp [hc, validateCase] at he
      | some r =>
        rw [hr] at he
        cases hc : h.ops c <;> simp only [hc, validateCase, Option.map_some, check_error,
          decide_eq_false_iff_not, reduceCtorEq] at he
        rename_i sig
        obtain ⟨h1, rfl⟩ := he
        refine ⟨rows, other, outs, done.length, sig, r, ho, by simp [hd], hc, hr, ?_⟩
        rintro rfl
        exact h1 ⟨rfl, rfl⟩
    · exact ih (done ++ [c]) (by simp [hd]) (by simpa using he)

theorem validateIoNodes_error {C : Context} {h : Hugr Ops.Op Meta} {n : Nat} {i o : List Ty}
    {e : VError} {a : Nat} {cs : List Nat} (hb : body (h.ops n) = some (i, o))
    (hc : h.children n = a :: cs) (h1 : OpTag.isSuperset .input (h.ops a).opTag = true)
    (h2 : validateSecond h n .output cs = .ok)
    (he : validateIoNodes h n ⟨i, o⟩ (a :: cs) = .error e) : Reports C h e := by
  cases cs with
  | nil => simp [validateIoNodes] at he
  | cons b cs =>
    simp only [validateSecond, check_ok, output_tag] at h2
    rw [input_tag] at h1
    obtain ⟨t1, h1⟩ := h1
    obtain ⟨t2, h2⟩ := h2
    simp only [validateIoNodes, h1, h2, Op.dataflowSignature] at he
    simp only [Option.getD_some, andThen_error, check_error, decide_eq_false_iff_not] at he
    rcases he with ⟨hx, rfl⟩ | ⟨-, ⟨hx, rfl⟩ | ⟨-, he⟩⟩
    · exact Or.inr ⟨i, o, hb, Or.inl ⟨by simp [hc], _, h1, hx⟩⟩
    · exact Or.inr ⟨i, o, hb, Or.inr ⟨by simp [hc], _, h2, hx⟩⟩
    · obtain ⟨c, hm, he⟩ := forAll_error he
      rw [check_error, decide_eq_false_iff_not, io_tag, not_not] at he
      obtain ⟨hx, rfl⟩ := he
      exact ⟨a, b, cs, by simp [hb], hc, hm, hx⟩

theorem validateCfgChildren_error {C : Context} {h : Hugr Ops.Op Meta} {n : Nat} {sig : Signature}
    {e : VError} {a : Nat} {cs : List Nat} (hb : h.ops n = .cfg sig)
    (hc : h.children n = a :: cs) (h1 : OpTag.isSuperset .dataflowBlock (h.ops a).opTag = true)
    (h2 : validateSecond h n .basicBlockExit cs = .ok)
    (he : validateCfgChildren h n sig (a :: cs) = .error e) : Reports C h e := by
  cases cs with
  | nil => simp [validateCfgChildren] at he
  | cons b cs =>
    simp only [validateSecond, check_ok, exit_tag] at h2
    rw [block_tag] at h1
    obtain ⟨i, o, r, h1⟩ := h1
    obtain ⟨t2, h2⟩ := h2
    simp only [validateCfgChildren, h1, h2] at he
    simp only [andThen_error, check_error, decide_eq_false_iff_not] at he
    rcases he with ⟨hx, rfl⟩ | ⟨-, ⟨hx, rfl⟩ | ⟨-, he⟩⟩
    · exact Or.inl ⟨sig, hb, Or.inl ⟨by simp [hc], _, _, _, h1, hx⟩⟩
    · exact Or.inl ⟨sig, hb, Or.inr ⟨by simp [hc], _, h2, hx⟩⟩
    · obtain ⟨c, hm, he⟩ := forAll_error he
      rw [check_error, decide_eq_false_iff_not, exit_tag_eq] at he
      obtain ⟨hx, rfl⟩ := he
      simp only [ne_eq, not_forall, not_not] at hx
      obtain ⟨o', hx⟩ := hx
      exact ⟨sig, a, b, cs, o', hb, hc, hm, hx⟩

theorem validateEdges_error {C : Context} {h : Hugr Ops.Op Meta} (ht : IsTree h) {n : Nat}
    {sig : Signature} {e : VError} (hb : h.ops n = .cfg sig)
    (he : validateEdges h n (h.children n) = .error e) : Reports C h e := by
  unfold validateEdges at he
  obtain ⟨s, hs, he⟩ := forAll_error he
  obtain ⟨d, hd, he⟩ := forAll_error he
  split at he
  · cases he
  · rename_i hp
    rw [getParent_eq ht] at hp
    obtain ⟨l, hl, he'⟩ := forAll_error he
    clear he
    simp only [nodeConnections, List.mem_filter, Bool.and_eq_true, decide_eq_true_eq] at hl
    obtain ⟨hl, rfl, rfl⟩ := hl
    have hno : ¬ BlockLinkOk h l := by
      rw [← validateCfgEdge_ok h n l, he']; simp
    unfold validateCfgEdge at he'
    split at he'
    · split at he'
      · cases he'
      · rw [check_error] at he'
        obtain ⟨-, rfl⟩ := he'
        exact ⟨⟨sig, hb⟩, hl, hs, (mem_children ht _ _).2 (by simpa using hp), hno⟩
    · cases he'

theorem validateChildren_error {C : Context} {h : Hugr Ops.Op Meta} (ht : IsTree h) {n : Nat}
    {e : VError} (he : validateChildren h n = .error e) : Reports C h e := by
  have hf : (flags (h.ops n)).requiresChildren = true → Container (h.ops n) ∧ h.ops n ≠ .module := by
    cases h.ops n <;> simp [flags, Container, body]
  have hfirst : ∀ c cs, h.children n = c :: cs →
      (flags (h.ops n)).allowedFirst.isSuperset (h.ops c).opTag = false →
      Reports C h (.invalidInitialChild n true) := by
    intro c cs hc hfl
    refine ⟨c, by simp [hc], ?_⟩
    cases ho : h.ops n <;> simp only [ho, flags, any_tag, reduceCtorEq] at hfl <;>
      simp only [body]
    case cfg sig =>
      refine Or.inl ⟨sig, rfl, ?_⟩
      simp only [if_true]
      intro i o r he
      rw [(block_tag _).2 ⟨i, o, r, he⟩] at hfl
      cases hfl
    all_goals
      refine Or.inr ⟨rfl, ?_⟩
      simp only [if_true]
      intro ts he
      rw [(input_tag _).2 ⟨ts, he⟩] at hfl
      cases hfl
  have hsecond : ∀ c cs e, h.children n = c :: cs →
      validateSecond h n (flags (h.ops n)).allowedSecond cs = .error e → Reports C h e := by
    intro c cs e hc hfl
    cases cs with
    | nil => simp [validateSecond] at hfl
    | cons d cs =>
      rw [validateSecond, check_error] at hfl
      obtain ⟨hfl, rfl⟩ := hfl
      refine ⟨d, by simp [hc], ?_⟩
      cases ho : h.ops n <;> simp only [ho, flags, any_tag, reduceCtorEq] at hfl <;>
        simp only [body]
      case cfg sig =>
        refine Or.inl ⟨sig, rfl, ?_⟩
        simp only [Bool.false_eq_true, if_false]
        intro o he
        rw [(exit_tag _).2 ⟨o, he⟩] at hfl
        cases hfl
      all_goals
        refine Or.inr ⟨rfl, ?_⟩
        simp only [Bool.false_eq_true, if_false]
        intro ts he
        rw [(output_tag _).2 ⟨ts, he⟩] at hfl
        cases hfl
  have hops : ∀ c cs e, h.children n = c :: cs →
      (flags (h.ops n)).allowedFirst.isSuperset (h.ops c).opTag = true →
      validateSecond h n (flags (h.ops n)).allowedSecond cs = .ok →
      validateOpChildren h n (c :: cs) = .error e → Reports C h e := by
    intro c cs e hc h1 h2 he
    unfold validateOpChildren at he
    cases ho : h.ops n
    case conditional rows other outs =>
      simp only [ho, andThen_error, check_error, decide_eq_false_iff_not] at he
      rcases he with ⟨hx, rfl⟩ | ⟨-, he⟩
      · exact ⟨rows, other, outs, ho, by rw [hc]; exact hx⟩
      · exact validateCases_error ho (c :: cs) [] hc he
    case cfg sig =>
      simp only [ho, flags] at he h1 h2
      exact validateCfgChildren_error ho hc h1 h2 he
    all_goals
      simp only [ho, Op.innerSignature, flags, reduceCtorEq] at he h1 h2
    all_goals
      exact validateIoNodes_error (by rw [ho]; rfl) hc h1 h2 he
  have hedge : ∀ e, (flags (h.ops n)).edgeCheck = true → validateEdges h n (h.children n) = .error e →
      Reports C h e := by
    intro e hfl he
    cases ho : h.ops n <;> simp only [ho, flags, Bool.false_eq_true] at hfl
    exact validateEdges_error ht ho he
  have hdag : ∀ e, (flags (h.ops n)).requiresDag = true → validateDag h n = .error e →
      Reports C h e := by
    intro e hfl he
    have hno : ¬ ∀ m, ¬ Relation.TransGen (RegionEdge h n) m m := by
      rw [← validateDag_ok ht, he]; simp
    rw [validateDag, check_error] at he
    obtain ⟨-, rfl⟩ := he
    simp only [not_forall, not_not] at hno
    refine ⟨?_, hno⟩
    cases ho : h.ops n <;> simp [ho, flags] at hfl <;> rfl
  unfold validateChildren at he
  simp only [] at he
  cases hc : h.children n with
  | nil =>
    rw [hc] at he
    simp only [check_error, Bool.not_eq_false'] at he
    obtain ⟨h1, rfl⟩ := he
    exact ⟨(hf h1).1, (hf h1).2, hc⟩
  | cons c cs =>
    rw [hc] at he
    simp only [andThen_error, check_error, Bool.not_eq_false'] at he
    rcases he with ⟨h1, rfl⟩ | ⟨-, ⟨h1, rfl⟩ | ⟨h1, he | ⟨h2, he | ⟨-, he | ⟨-, he⟩⟩⟩⟩⟩
    · refine ⟨fun hcn => ?_, by simp [hc]⟩
      rw [(container_iff _).2 hcn] at h1
      cases h1
    · exact hfirst c cs hc h1
    · exact hsecond c cs e hc he
    · rw [check_ok] at h1
      exact hops c cs e hc h1 h2 he
    · split at he
      · rename_i hfl; exact hedge e hfl (hc ▸ he)
      · cases he
    · split at he
      · rename_i hfl; exact hdag e hfl he
      · cases he

theorem validateNode_error {C : Context} {h : Hugr Ops.Op Meta} (ht : IsTree h) {n : Nat}
    {e : VError} (hn : h.live n = true) (he : validateNode C h n = .error e) : Reports C h e := by
  unfold validateNode at he
  rw [andThen_error, andThen_error, andThen_error, andThen_error] at he
  rcases he with he | ⟨-, he | ⟨-, he | ⟨-, he | ⟨-, he⟩⟩⟩⟩
  · obtain ⟨dir, -, he⟩ := forAll_error he
    exact validatePortCount_error hn he
  · exact validateParent_error ht hn he
  · exact validateEntrypoint_error he
  · exact validateChildren_error ht he
  · exact validateConst_error he

/-! ## Ports and edges -/

theorem edgeLoop_error {C : Context} {h : Hugr Ops.Op Meta} (ht : IsTree h) (hlk : LinksOk h)
    (hpo : PortsOk h) {l : Link} {kind : Kind} {fp : Nat} {e : VError} (hl : l ∈ h.links)
    (hk : srcKind h l = some kind) (hs : h.hier.parent l.src = some fp)
    (hno : ¬ EdgeOk h l kind) :
    ∀ (fuel a : Nat), Above h.hier.parent l.dst a → edgeLoop h l kind.isStatic fp fuel a = .error e →
      Reports C h e := by
  intro fuel
  induction fuel with
  | zero =>
    intro a _ he
    rw [edgeLoop] at he
    cases he
    exact ⟨hl, kind, hk, hno⟩
  | succ fuel ih =>
    intro a ha he
    rw [edgeLoop, getParent_eq ht, getParent_eq ht] at he
    cases hp : h.hier.parent a with
    | none =>
      rw [hp] at he; cases he
      exact ⟨hl, kind, hk, hno⟩
    | some ap =>
      rw [hp] at he
      simp only [] at he
      split at he
      · rename_i hap
        split at he
        · cases he
        · split at he
          · cases he
          · rename_i hfd
            cases he
            refine ⟨hl, ha, by rw [hp, hs, hap], ?_, kind, hk, hno⟩
            intro o ho h1 h2 h3
            have := (order_found hlk hpo l.src a).2 ⟨o, ho, h1, h2, h3⟩
            rw [hfd] at this
            cases this
      · split at he
        · rename_i hg
          rw [andThen_error, check_error, check_ok, decide_eq_true_iff] at he
          rcases he with ⟨-, rfl⟩ | ⟨hc, he⟩
          · exact ⟨hl, kind, hk, hno⟩
          · obtain ⟨sig, hc⟩ := (cfg_tag_eq _).1 hc
            have hnd : ¬ ∃ entry rest, h.children ap = entry :: rest ∧
                Dominates (RegionEdge h ap) entry fp a := by
              rw [← checkDominance_ok ht ap fp a (.nonDominatedAncestor l a), he]; simp
            unfold checkDominance at he
            split at he
            · cases he
            · rename_i entry rest hch
              rw [check_error] at he
              obtain ⟨-, rfl⟩ := he
              exact ⟨hl, ha, kind, fp, ap, sig, entry, rest, hk, hno, hs, hg.1.symm, hp, hc, hch,
                fun hd => hnd ⟨entry, rest, hch, hd⟩⟩
        · exact ih ap (ha.trans (Above.of_parent hp)) he

theorem validateEdge_error {C : Context} {h : Hugr Ops.Op Meta} (ht : IsTree h) (hlk : LinksOk h)
    (hpo : PortsOk h) {l : Link} {kind : Kind} {e : VError} (hl : l ∈ h.links)
    (hk : srcKind h l = some kind) (he : validateEdge h l kind = .error e) : Reports C h e := by
  have hno : ¬ EdgeOk h l kind := by rw [← validateEdge_ok ht hlk hpo, he]; simp
  unfold validateEdge at he
  rw [getParent_eq ht, getParent_eq ht] at he
  cases hs : h.hier.parent l.src with
  | none => rw [hs] at he; cases he
  | some fp =>
    rw [hs] at he
    simp only [] at he
    split at he
    · cases he
    · rename_i hne
      split at he
      · rename_i hc
        cases he
        refine ⟨hl, by rw [hs]; exact fun hx => hne hx.symm, kind, hk, ?_⟩
        cases kind <;> simp_all [Kind.isStatic, Kind.isValue, isLinear]
      · cases hd : h.hier.parent l.dst with
        | none => rw [hd] at he; cases he; exact ⟨hl, kind, hk, hno⟩
        | some tp =>
          rw [hd] at he
          exact edgeLoop_error ht hlk hpo hl hk hs hno _ _ (Above.of_parent hd) he

theorem validateIncoming_error {C : Context} {h : Hugr Ops.Op Meta} (hpo : PortsOk h) {n port : Nat}
    {e : VError} (hn : h.live n = true) (hp : port < h.ins n)
    (he : validateIncoming h n port = .error e) : Reports C h e := by
  obtain ⟨h1, h2, -⟩ := hpo n hn
  rw [h2] at hp
  have hk := List.getElem?_eq_getElem hp
  generalize ((h.ops n).ports .incoming)[port] = kind at hk
  have hno : ¬ InDegreeOk kind (linksTo h n port).length := by
    rw [← validateIncoming_ok hpo n port kind hn hk, he]; simp
  unfold validateIncoming at he
  rw [C10_port_kind _ _ h1 _ hp, hk] at he
  have hlen : (h.linkedOutputs n port).length = (linksTo h n port).length := by
    simp [Hugr.linkedOutputs, linksTo]
  simp only [andThen_error, check_error, Bool.not_eq_false', Bool.and_eq_true, decide_eq_true_eq] at he
  rcases he with ⟨hx, rfl⟩ | ⟨-, hx, rfl⟩
  · have hz : linksTo h n port = [] := by
      have := List.isEmpty_iff.1 hx.2
      rw [this] at hlen
      exact List.eq_nil_of_length_eq_zero hlen.symm
    rw [hz] at hno
    exact ⟨hn, hz, kind, hk, hno⟩
  · rw [hlen] at hx
    exact ⟨hn, hx.2, kind, hk, hno⟩

theorem validateLinks_error {h : Hugr Ops.Op Meta} {n port : Nat} {kind : Kind} {unique : Bool}
    {e : VError} : ∀ (ls : List (Nat × Nat)) (first : Bool),
      validateLinks h n port kind unique first ls = .error e →
      (unique = true ∧ (if first then 1 else 0) < ls.length ∧ e = .tooManyConnections n .outgoing port) ∨
      ∃ m ∈ ls, checkKind kind ⟨n, port, m.1, m.2⟩ ((h.ops m.1).portKind .incoming m.2) = .error e ∨
        validateEdge h ⟨n, port, m.1, m.2⟩ kind = .error e := by
  intro ls
  induction ls with
  | nil => intro first he; simp [validateLinks] at he
  | cons m ls ih =>
    intro first he
    obtain ⟨m, mp⟩ := m
    rw [validateLinks, andThen_error, andThen_error, andThen_error, check_error] at he
    rcases he with ⟨h1, rfl⟩ | ⟨-, he | ⟨-, he | ⟨-, he⟩⟩⟩
    · left
      cases unique <;> cases first <;> simp_all
    · exact Or.inr ⟨(m, mp), by simp, Or.inl he⟩
    · exact Or.inr ⟨(m, mp), by simp, Or.inr he⟩
    · rcases ih false he with ⟨h1, h2, h3⟩ | ⟨x, hx, h⟩
      · left
        refine ⟨h1, ?_, h3⟩
        simp only [Bool.false_eq_true, if_false] at h2
        simp only [List.length_cons]
        split <;> omega
      · exact Or.inr ⟨x, List.mem_cons_of_mem _ hx, h⟩

theorem validateOutgoing_error {C : Context} {h : Hugr Ops.Op Meta} (ht : IsTree h) (hlk : LinksOk h)
    (hpo : PortsOk h) {n port : Nat} {decls : List Term} {e : VError} (hn : h.live n = true)
    (hd : DeclsAt h n decls) (hp : port < h.outs n)
    (he : validateOutgoing C h decls n port = .error e) : Reports C h e := by
  obtain ⟨h1, -, h2⟩ := hpo n hn
  rw [h2] at hp
  have hk := List.getElem?_eq_getElem hp
  have hmem := List.getElem_mem hp
  generalize ((h.ops n).ports .outgoing)[port] = kind at hk hmem
  unfold validateOutgoing at he
  rw [C10_port_kind _ _ h1 _ hp, hk] at he
  have hlen : (h.linkedInputs n port).length = (linksFrom h n port).length := by
    simp [Hugr.linkedInputs, linksFrom]
  simp only [andThen_error, check_error, Bool.not_eq_false', Bool.and_eq_true] at he
  have hdeg : (isLinear kind || decide (kind = .controlFlow)) = true →
      ∀ k, OutDegreeOk kind k → k = 1 := by
    cases kind <;> simp [isLinear, OutDegreeOk]
    intro hc k hx
    rcases hx with hx | hx
    · rw [hc] at hx; cases hx
    · exact hx
  rcases he with ⟨⟨hu, hx⟩, rfl⟩ | ⟨-, ⟨hx, rfl⟩ | ⟨-, he⟩⟩
  · have hz : linksFrom h n port = [] := by
      have := List.isEmpty_iff.1 hx
      rw [this] at hlen
      exact List.eq_nil_of_length_eq_zero hlen.symm
    refine ⟨hn, hz, kind, hk, fun hok => ?_⟩
    have := hdeg hu _ hok
    omega
  · refine ⟨decls, hd, fun hall => ?_⟩
    have := hall.2 kind hmem
    have hv : validatePortKind C decls kind = true := by
      cases kind <;> simpa [validatePortKind, KindOk] using this
    rw [hv] at hx
    cases hx
  · rcases validateLinks_error _ _ he with ⟨hu, h3, rfl⟩ | ⟨m, hm, he⟩
    · rw [hlen] at h3
      simp only [if_true] at h3
      refine ⟨hn, h3, kind, hk, fun hok => ?_⟩
      have := hdeg hu _ hok
      omega
    · obtain ⟨l, hl, rfl⟩ := List.mem_map.1 hm
      simp only [List.mem_filter, Bool.and_eq_true, decide_eq_true_eq] at hl
      obtain ⟨hl, rfl, rfl⟩ := hl
      rcases he with he | he
      · obtain ⟨-, -, h5, h6⟩ := hlk l hl
        obtain ⟨h3, h4, -⟩ := hpo _ h5
        rw [C10_port_kind _ _ h3 _ (by omega)] at he
        cases hk2 : ((h.ops l.dst).ports .incoming)[l.dstPort]? with
        | none => rw [hk2] at he; cases he
        | some k2 =>
          rw [hk2] at he
          simp only [checkKind, check_error, decide_eq_false_iff_not] at he
          obtain ⟨h7, rfl⟩ := he
          refine ⟨hl, ?_⟩
          show srcKind h l ≠ ((h.ops l.dst).ports .incoming)[l.dstPort]?
          unfold srcKind
          rw [hk, hk2]
          intro hx
          cases hx
          exact h7 rfl
      · exact validateEdge_error ht hlk hpo hl hk he

theorem validateSubtree_error {C : Context} {h : Hugr Ops.Op Meta} (ht : IsTree h) {e : VError} :
    ∀ (fuel n0 : Nat) (d0 : List Term), validateSubtree C h fuel d0 n0 = .error e →
      ∃ m d, DeclsFrom h n0 d0 m d ∧ (validateOp C d m (h.ops m) = .error e ∨
        (∃ port < h.ins m, validateIncoming h m port = .error e) ∨
        ∃ port < h.outs m, validateOutgoing C h d m port = .error e) := by
  intro fuel
  induction fuel with
  | zero => intro n0 d0 he; simp [validateSubtree] at he
  | succ fuel ih =>
    intro n0 d0 he
    rw [validateSubtree, andThen_error, andThen_error, andThen_error] at he
    rcases he with he | ⟨-, he | ⟨-, he | ⟨-, he⟩⟩⟩
    · exact ⟨n0, d0, .here, Or.inl he⟩
    · obtain ⟨port, hp, he⟩ := forAll_error he
      exact ⟨n0, d0, .here, Or.inr (Or.inl ⟨port, List.mem_range.1 hp, he⟩)⟩
    · obtain ⟨port, hp, he⟩ := forAll_error he
      exact ⟨n0, d0, .here, Or.inr (Or.inr ⟨port, List.mem_range.1 hp, he⟩)⟩
    · obtain ⟨c, hc, he⟩ := forAll_error he
      obtain ⟨m, d, hd, hx⟩ := ih c _ he
      exact ⟨m, d, declsFrom_first.2 (Or.inr ⟨c, (mem_children ht _ _).1 hc, hd⟩), hx⟩

theorem validateOp_error {C : Context} {h : Hugr Ops.Op Meta} {n : Nat} {decls : List Term} {e : VError}
    (hd : DeclsAt h n decls) (he : validateOp C decls n (h.ops n) = .error e) : Reports C h e := by
  have hno : ¬ ArgsOk C decls (h.ops n) := by rw [← validateOp_ok C decls n, he]; simp
  have hen : e = .signature n := by
    cases ho : h.ops n <;> simp only [ho, validateOp, check_error, reduceCtorEq, validateCall] at he
    case extensionOp => exact he.2.symm
    all_goals
      split at he
      · rw [check_error] at he; exact he.2.symm
      · cases he; rfl
      · cases he
  subst hen
  exact ⟨decls, hd, fun hall => hno hall.1⟩

/-! ## Linkage -/

theorem linkageLoop_error {C : Context} {h : Hugr Ops.Op Meta} {e : VError} :
    ∀ (cs done : List Nat) (seen : List (String × Nat × PolyFunc × Bool)),
      (∀ name v, seen.lookup name = some v → v.1 ∈ done ∧ exported C h v.1 = some (name, v.2)) →
      (done ++ cs).Nodup → (∀ c ∈ done ++ cs, c ∈ h.children h.moduleRoot) →
      linkageLoop C h seen cs = .error e → Reports C h e := by
  intro cs
  induction cs with
  | nil => intro done seen _ _ _ he; simp [linkageLoop] at he
  | cons c cs ih =>
    intro done seen h1 hnd hch he
    have hnd' : (done ++ [c] ++ cs).Nodup := by simpa using hnd
    have hch' : ∀ x ∈ done ++ [c] ++ cs, x ∈ h.children h.moduleRoot := by simpa using hch
    have hc : c ∉ done := by
      intro hm
      rw [List.nodup_append] at hnd
      exact hnd.2.2 c hm c (by simp) rfl
    have hkeep : ∀ name v, seen.lookup name = some v →
        v.1 ∈ done ++ [c] ∧ exported C h v.1 = some (name, v.2) := fun name v hv =>
      ⟨List.mem_append_left _ (h1 name v hv).1, (h1 name v hv).2⟩
    rw [linkageLoop] at he
    cases hx : exported C h c with
    | none =>
      rw [hx] at he
      exact ih (done ++ [c]) seen hkeep hnd' hch' he
    | some x =>
      obtain ⟨name, sig, isDefn⟩ := x
      rw [hx] at he
      simp only [] at he
      cases hs : seen.lookup name with
      | none =>
        rw [hs] at he
        refine ih (done ++ [c]) _ ?_ hnd' hch' he
        intro nm v hv
        rw [List.lookup_cons] at hv
        split at hv
        · rename_i hnm
          simp only [beq_iff_eq] at hnm
          cases hv
          subst hnm
          exact ⟨by simp, hx⟩
        · exact hkeep nm v hv
      | some prev =>
        obtain ⟨prev, prevSig, prevDefn⟩ := prev
        rw [hs] at he
        simp only [] at he
        split at he
        · rename_i hbad
          cases he
          obtain ⟨hp1, hp2⟩ := h1 name _ hs
          have hm1 := hch prev (List.mem_append_left _ hp1)
          have hm2 := hch c (by simp)
          refine ⟨fun heq => hc (heq ▸ hp1), name, prevSig, sig, prevDefn, isDefn,
            (exported_iff C h prev _ _ _ hm1).1 hp2, (exported_iff C h c _ _ _ hm2).1 hx, ?_⟩
          rintro ⟨rfl, rfl, rfl⟩
          simp at hbad
        · exact ih (done ++ [c]) seen hkeep hnd' hch' he

/-- **C47** An error that validation reports is there: the nodes, ports and links it names break the
rule it names. -/
theorem C47_error_true (C : Context) (h : Hugr Ops.Op Meta) (ht : IsTree h) (hl : LinksOk h)
    (e : VError) (he : validate C h = .error e) : Reports C h e := by
  have hroot : check (h.getParent h.moduleRoot).isNone .rootNotRoot = .ok := by
    rw [getParent_eq ht, ht.root_top]; rfl
  unfold validate at he
  rw [andThen_error, andThen_error, andThen_error, hroot, forAll_ok] at he
  rcases he with he | ⟨-, he | ⟨hn, he⟩⟩
  · cases he
  · obtain ⟨n, hn, he⟩ := forAll_error he
    exact validateNode_error ht ((mem_nodes ht n).1 hn) he
  · have hpo : PortsOk h := fun n hl =>
      ((validateNode_ok ht C n hl).1 (hn n ((mem_nodes ht n).2 hl))).1
    rcases he with he | ⟨-, he⟩
    · obtain ⟨m, d, hd, hx⟩ := validateSubtree_error ht _ _ _ he
      obtain ⟨hd, hm⟩ := (declsFrom_iff ht m d).1 hd
      rcases hx with hx | ⟨port, hp, hx⟩ | ⟨port, hp, hx⟩
      · exact validateOp_error hd hx
      · exact validateIncoming_error hpo hm hp hx
      · exact validateOutgoing_error ht hl hpo hm hd hp hx
    · exact linkageLoop_error (h.children h.moduleRoot) [] [] (by simp) (ht.child_once h.moduleRoot)
        (by simp) he

end Verif.Validate
