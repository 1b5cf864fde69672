import Verif.Types.TransformGood

namespace Verif.Types

/-! ## Kinds after a replacement that makes no bound worse -/

/-- The second term fits wherever the first one does. -/
structure Shrinks (t t' : Term) : Prop where
  check : ∀ k, checkTerm t k = true → checkTerm t' k = true
  splice : ∀ parts, checkTupleSplice t parts ≠ .fail → checkTupleSplice t' parts = checkTupleSplice t parts
  row : ∀ k, rowVarFits t k = true → rowVarFits t' k = true
  runtime : ∀ x, t = .runtime x → ∃ x', t' = .runtime x' ∧ x.bound.contains x'.bound = true

theorem Shrinks.refl (t : Term) : Shrinks t t :=
  ⟨fun _ h => h, fun _ _ => rfl, fun _ h => h, fun x hx => ⟨x, hx, by cases x.bound <;> rfl⟩⟩

theorem items_shrink {ts ts' : List Term} (h : List.Forall₂ Shrinks ts ts') (k : Term) (hc : checkItems ts k = true) :
    checkItems ts' k = true := by
  induction h with
  | nil => rfl
  | cons h1 _ ih =>
    simp only [checkItems, Bool.and_eq_true, Bool.or_eq_true] at hc ⊢
    exact ⟨hc.1.imp (h1.row k) (h1.check k), ih hc.2⟩

theorem lists_shrink {ts ts' : List Term} (h : List.Forall₂ Shrinks ts ts') (k : Term) (hc : checkLists ts k = true) :
    checkLists ts' k = true := by
  induction h with
  | nil => rfl
  | cons h1 _ ih =>
    simp only [checkLists, Bool.and_eq_true] at hc ⊢
    exact ⟨h1.check k hc.1, ih hc.2⟩

theorem terms_shrink {ts ts' : List Term} (h : List.Forall₂ Shrinks ts ts') : ∀ (ks : List Term), checkTerms ts ks = true →
    checkTerms ts' ks = true := by
  induction h with
  | nil => exact fun _ h => h
  | cons h1 _ ih =>
    intro ks hc
    cases ks with
    | nil => simp [checkTerms] at hc
    | cons k ks =>
      simp only [checkTerms, Bool.and_eq_true] at hc ⊢
      exact ⟨h1.check k hc.1, ih ks hc.2⟩

theorem tupleItems_shrink {ts ts' : List Term} (h : List.Forall₂ Shrinks ts ts') : ∀ (parts : List SeqPart),
    checkTupleItems ts parts ≠ .fail → checkTupleItems ts' parts = checkTupleItems ts parts := by
  induction h with
  | nil => exact fun _ _ => rfl
  | cons h1 _ ih =>
    intro parts hc
    cases parts with
    | nil => simp [checkTupleItems] at hc
    | cons p parts =>
      cases p with
      | splice => rfl
      | item k =>
        simp only [checkTupleItems] at hc ⊢
        split at hc
        · rename_i hk
          rw [if_pos hk, if_pos (h1.check k hk)]
          exact ih parts hc
        · exact absurd rfl hc

theorem tupleSplices_shrink {ts ts' : List Term} (h : List.Forall₂ Shrinks ts ts') : ∀ (parts : List SeqPart),
    checkTupleSplices ts parts ≠ .fail → checkTupleSplices ts' parts = checkTupleSplices ts parts := by
  induction h with
  | nil => exact fun _ _ => rfl
  | @cons t t' _ _ h1 _ ih =>
    intro parts hc
    simp only [checkTupleSplices] at hc ⊢
    have hnf : checkTupleSplice t parts ≠ .fail := by
      intro e; rw [e] at hc; exact hc rfl
    rw [h1.splice parts hnf]
    cases hs : checkTupleSplice t parts with
    | fail => rfl
    | done => rfl
    | rest r =>
      rw [hs] at hc
      exact ih r hc

theorem tupleOk_shrink {r r' : TupleCheck} (h : r ≠ .fail → r' = r)
    (hc : (r == .rest [] || r == .done) = true) : (r' == .rest [] || r' == .done) = true := by
  cases r with
  | fail => simp at hc
  | done => rw [h (by simp)]; exact hc
  | rest l => rw [h (by simp)]; exact hc

theorem argBounds_shrink {ts ts' : List Term} (h : List.Forall₂ Shrinks ts ts') : ∀ (is : List Nat) (bs : List Bound),
    argBounds ts is = some bs → ∃ bs', argBounds ts' is = some bs' ∧ ∀ b' ∈ bs', ∃ b ∈ bs, b.contains b' = true
  | [], bs, hb => by cases hb; exact ⟨[], rfl, by simp⟩
  | i :: is, bs, hb => by
    simp only [argBounds] at hb ⊢
    cases hi : ts[i]? with
    | none => rw [hi] at hb; cases hb
    | some t =>
      obtain ⟨hlt, hti⟩ := List.getElem?_eq_some_iff.1 hi
      have hlt' : i < ts'.length := h.length_eq ▸ hlt
      have hR := h.get hlt hlt'
      simp only [List.get_eq_getElem, hti] at hR
      rw [hi] at hb
      cases t with
      | runtime x =>
        obtain ⟨x', hx', hc⟩ := hR.runtime x rfl
        rw [List.getElem?_eq_getElem hlt', hx']
        simp only at hb ⊢
        cases ha : argBounds ts is with
        | none => rw [ha] at hb; cases hb
        | some bs1 =>
          rw [ha] at hb
          cases hb
          obtain ⟨bs', h1, h2⟩ := argBounds_shrink h is bs1 ha
          rw [h1]
          refine ⟨_, rfl, ?_⟩
          intro b' hb'
          rcases List.mem_cons.1 hb' with rfl | hb'
          · exact ⟨_, List.mem_cons_self, hc⟩
          · obtain ⟨b, h3, h4⟩ := h2 b' hb'
            exact ⟨b, List.mem_cons_of_mem _ h3, h4⟩
      | _ => cases hb

theorem boundOf_shrink {ts ts' : List Term} (h : List.Forall₂ Shrinks ts ts') (d : TypeDef) {b : Bound}
    (hb : d.boundOf ts = some b) : ∃ b', d.boundOf ts' = some b' ∧ b.contains b' = true := by
  unfold TypeDef.boundOf at hb ⊢
  cases hd : d.bound with
  | explicit b1 =>
    rw [hd] at hb
    exact ⟨b1, rfl, by cases hb; cases b <;> rfl⟩
  | fromParams is =>
    rw [hd] at hb
    cases is with
    | nil => exact ⟨.linear, rfl, by cases hb; rfl⟩
    | cons i is =>
      simp only at hb ⊢
      cases ha : argBounds ts (i :: is) with
      | none => rw [ha] at hb; cases hb
      | some bs =>
        rw [ha] at hb
        obtain ⟨bs', h1, h2⟩ := argBounds_shrink h _ _ ha
        rw [h1]
        cases hb
        exact ⟨_, rfl, lub_mono h2⟩

theorem shrink_all (env : Env) (Γ : List Term) (tr : Transformer)
    (htr : ∀ e i args b, ∃ r, tr e i args b = .ok r ∧ ∀ t, r = some t → b.contains t.bound = true) :
    (∀ t : Term, t.validate env Γ = true → t.built = true → ∃ t' c, t.transform env tr = .ok (t', c) ∧ Shrinks t t') ∧
    (∀ t : Ty, t.validate env Γ = true → t.built = true →
      ∃ t' c, t.transform env tr = .ok (t', c) ∧ t.bound.contains t'.bound = true) ∧
    ∀ t : RTy, t.validate env Γ = true → t.built = true →
      ∃ t' c, t.transform env tr = .ok (t', c) ∧ t.bound.contains t'.bound = true := by
  have seqS : ∀ {α : Type} {f : α → Outcome (α × Bool)} {R : α → α → Prop} {ts : List α},
      (∀ t ∈ ts, ∃ t' c, f t = .ok (t', c) ∧ R t t') → ∃ ts' c, seqT f ts = .ok (ts', c) ∧ List.Forall₂ R ts ts' := by
    intro α f R ts h
    induction ts with
    | nil => exact ⟨_, _, rfl, .nil⟩
    | cons t ts ih =>
      obtain ⟨t', c1, h1, h2⟩ := h t List.mem_cons_self
      obtain ⟨ts', c2, h3, h4⟩ := ih fun x hx => h x (List.mem_cons_of_mem _ hx)
      exact ⟨_, _, seq_cons.2 ⟨_, _, _, _, h1, h3, rfl, rfl⟩, .cons h2 h4⟩
  apply syntax_induction
  case list | listConcat | tuple | tupleConcat =>
    intro ts ih hv hb
    simp only [Term.built, builtTerms_iff] at hb
    simp only [Term.validate, validateTerms_iff] at hv
    obtain ⟨ts', c, h, hs⟩ := seqS fun t ht => ih t ht (hv t ht) (hb t ht)
    refine ⟨_, c, by simp only [Term.transform, wrap_ok, transformTerms_seq]; exact ⟨_, h, rfl⟩, ?_, ?_, ?_, by simp⟩
    · intro k hk
      cases k <;> simp only [checkTerm] at hk ⊢ <;>
        first
        | exact items_shrink hs _ hk
        | exact lists_shrink hs _ hk
        | exact tupleOk_shrink (tupleItems_shrink hs _) hk
        | exact tupleOk_shrink (tupleSplices_shrink hs _) hk
        | cases hk
    · intro parts hp
      first
        | exact tupleItems_shrink hs parts hp
        | exact tupleSplices_shrink hs parts hp
        | cases parts <;> simp [checkTupleSplice]
    · intro k hk
      simp [rowVarFits] at hk
  case listType | tupleType | constType =>
    intro t ih hv hb
    simp only [Term.built] at hb
    simp only [Term.validate] at hv
    obtain ⟨t', c, h, hs⟩ := ih hv hb
    refine ⟨_, c, by simp only [Term.transform, wrap_ok]; exact ⟨_, h, rfl⟩, ?_, ?_, ?_, by simp⟩
    · intro k hk
      cases k <;> simp [checkTerm] at hk ⊢
    · intro parts hp
      cases parts <;> simp [checkTupleSplice]
    · intro k hk
      simp [rowVarFits] at hk
  case runtime =>
    intro t ih hv hb
    simp only [Term.built] at hb
    simp only [Term.validate] at hv
    obtain ⟨t', c, h, hs⟩ := ih hv hb
    refine ⟨_, c, by simp only [Term.transform, wrap_ok]; exact ⟨_, h, rfl⟩, ?_, ?_, ?_, ?_⟩
    · intro k hk
      cases k <;> simp [checkTerm] at hk ⊢
      exact contains_trans hk hs
    · intro parts hp
      cases parts <;> simp [checkTupleSplice]
    · intro k hk
      simp [rowVarFits] at hk
    · intro x hx
      cases hx
      exact ⟨_, rfl, hs⟩
  case ext =>
    intro e i args b ih hv hb
    simp only [Ty.built, builtTerms_iff] at hb
    simp only [Ty.validate, Bool.and_eq_true, validateTerms_iff] at hv
    obtain ⟨hv, hd⟩ := hv
    obtain ⟨r, hr, hrb⟩ := htr e i args b
    cases r with
    | some nt =>
      refine ⟨nt, true, ?_, hrb nt rfl⟩
      simp only [Ty.transform, andThen_ok]
      exact ⟨_, hr, rfl⟩
    | none =>
      obtain ⟨args', c, h, hs⟩ := seqS fun t ht => ih t ht (hv t ht) (hb t ht)
      cases hdef : env e i with
      | none => rw [hdef] at hd; cases hd
      | some d =>
        rw [hdef] at hd
        simp only [Bool.and_eq_true, decide_eq_true_eq] at hd
        obtain ⟨b', hb', hbb⟩ := boundOf_shrink hs d hd.2
        have hck := terms_shrink hs _ hd.1
        cases c with
        | true =>
          refine ⟨.ext e i args' b', true, ?_, hbb⟩
          simp only [Ty.transform, andThen_ok]
          refine ⟨_, hr, ?_⟩
          simp only [andThen_ok, transformTerms_seq]
          refine ⟨_, h, ?_⟩
          simp only [if_true, andThen_ok]
          refine ⟨_, ?_, rfl⟩
          unfold reinstantiate
          rw [hdef]
          simp only [hck, if_true, hb']
        | false =>
          refine ⟨.ext e i args' b, false, ?_, ?_⟩
          · simp only [Ty.transform, andThen_ok]
            refine ⟨_, hr, ?_⟩
            simp only [andThen_ok, transformTerms_seq]
            exact ⟨_, h, rfl⟩
          · show b.contains b = true
            cases b <;> rfl
  case function =>
    intro i o ih1 ih2 hv hb
    simp only [Ty.built, Bool.and_eq_true, builtRow_iff] at hb
    simp only [Ty.validate, Bool.and_eq_true, validateRow_iff] at hv
    obtain ⟨i', c1, h1, -⟩ := seqS fun t ht => ih1 t ht (hv.1 t ht) (hb.1 t ht)
    obtain ⟨o', c2, h2, -⟩ := seqS fun t ht => ih2 t ht (hv.2 t ht) (hb.2 t ht)
    refine ⟨.function i' o', c1 || c2, ?_, rfl⟩
    simp only [Ty.transform, andThen_ok, transformRow_seq]
    exact ⟨_, h1, _, h2, rfl⟩
  case sumGen =>
    intro rows b ih hv hb
    simp only [Ty.built, Bool.and_eq_true, builtRows_iff, decide_eq_true_eq] at hb
    simp only [Ty.validate, validateRows_iff] at hv
    obtain ⟨rows', c, h, hs⟩ := seqS fun r hr => seqS fun t ht => ih r hr t ht (hv r hr t ht) (hb.1.1 r hr t ht)
    refine ⟨Ty.general rows', c, by simp only [Ty.transform, wrap_ok, transformRows_seq]; exact ⟨_, h, rfl⟩, ?_⟩
    show b.contains (leastUpperBound (rows'.flatten.map RTy.bound)) = true
    rw [hb.1.2]
    apply lub_mono
    have key : ∀ {r r' : List RTy}, List.Forall₂ (fun t t' : RTy => t.bound.contains t'.bound = true) r r' →
        ∀ t' ∈ r', ∃ t ∈ r, t.bound.contains t'.bound = true := by
      intro r r' h
      induction h with
      | nil => simp
      | cons h1 _ ih =>
        intro y hy
        rcases List.mem_cons.1 hy with rfl | hy
        · exact ⟨_, List.mem_cons_self, h1⟩
        · obtain ⟨t, h2, h3⟩ := ih y hy
          exact ⟨t, List.mem_cons_of_mem _ h2, h3⟩
    have key2 : ∀ {rs rs' : List (List RTy)}, List.Forall₂ (List.Forall₂ fun t t' : RTy => t.bound.contains t'.bound = true) rs rs' →
        ∀ t' ∈ rs'.flatten, ∃ t ∈ rs.flatten, t.bound.contains t'.bound = true := by
      intro rs rs' h
      induction h with
      | nil => simp
      | cons h1 _ ih =>
        intro y hy
        simp only [List.flatten_cons, List.mem_append] at hy ⊢
        rcases hy with hy | hy
        · obtain ⟨t, h2, h3⟩ := key h1 y hy
          exact ⟨t, .inl h2, h3⟩
        · obtain ⟨t, h2, h3⟩ := ih y hy
          exact ⟨t, .inr h2, h3⟩
    intro b' hb'
    simp only [List.mem_map] at hb'
    obtain ⟨t', ht', rfl⟩ := hb'
    obtain ⟨t, h2, h3⟩ := key2 hs t' ht'
    exact ⟨_, List.mem_map_of_mem h2, h3⟩
  case rty =>
    intro t ih hv hb
    simp only [RTy.built] at hb
    simp only [RTy.validate] at hv
    obtain ⟨t', c, h, hs⟩ := ih hv hb
    exact ⟨.ty t', c, by simp only [RTy.transform, wrap_ok]; exact ⟨_, h, rfl⟩, hs⟩
  case «alias» | tyVar | sumUnit | rowVar =>
    intros
    refine ⟨_, _, rfl, ?_⟩
    simp only [Ty.bound, RTy.bound]
    first | rfl | (rename_i b _ _; cases b <;> rfl)
  all_goals
    intros
    exact ⟨_, _, rfl, .refl _⟩

/-! ## Panics -/

/-- Replacing keeps what is a type. -/
theorem argBounds_transform_some {ts ts' : List Term} (h : List.Forall₂ (fun t t' => ∀ x, t = .runtime x → ∃ x', t' = .runtime x') ts ts') :
    ∀ (is : List Nat), (argBounds ts is).isSome = true → (argBounds ts' is).isSome = true
  | [], _ => rfl
  | i :: is, hb => by
    simp only [argBounds] at hb ⊢
    cases hi : ts[i]? with
    | none => rw [hi] at hb; cases hb
    | some t =>
      obtain ⟨hlt, hti⟩ := List.getElem?_eq_some_iff.1 hi
      have hlt' : i < ts'.length := h.length_eq ▸ hlt
      have hR := h.get hlt hlt'
      simp only [List.get_eq_getElem, hti] at hR
      rw [hi] at hb
      cases t with
      | runtime x =>
        obtain ⟨x', hx'⟩ := hR x rfl
        rw [List.getElem?_eq_getElem hlt', hx']
        simp only at hb ⊢
        cases ha : argBounds ts is with
        | none => rw [ha] at hb; cases hb
        | some bs1 =>
          have := argBounds_transform_some h is (by rw [ha]; rfl)
          obtain ⟨bs', h1⟩ := Option.isSome_iff_exists.1 this
          rw [h1]; rfl
      | _ => cases hb

theorem boundOf_some {ts ts' : List Term} (h : List.Forall₂ (fun t t' => ∀ x, t = .runtime x → ∃ x', t' = .runtime x') ts ts')
    (d : TypeDef) (hb : (d.boundOf ts).isSome = true) : (d.boundOf ts').isSome = true := by
  unfold TypeDef.boundOf at hb ⊢
  split <;> rename_i hd <;> rw [hd] at hb
  · rfl
  · rfl
  · rename_i is _
    revert hb
    cases is with
    | nil => exact fun _ => rfl
    | cons i is =>
      intro hb
      simp only [Option.isSome_map] at hb ⊢
      exact argBounds_transform_some h _ hb

theorem panic_all (env : Env) (Γ : List Term) (tr : Transformer) (htr : ∀ e i args b, tr e i args b ≠ .panic) :
    (∀ t : Term, t.validate env Γ = true → t.transform env tr ≠ .panic) ∧
    (∀ t : Ty, t.validate env Γ = true → t.transform env tr ≠ .panic) ∧
    ∀ t : RTy, t.validate env Γ = true → t.transform env tr ≠ .panic := by
  apply syntax_induction
  case list | listConcat | tuple | tupleConcat =>
    intro ts ih hv h
    simp only [Term.validate, validateTerms_iff] at hv
    simp only [Term.transform, wrap_panic, transformTerms_seq] at h
    exact seq_panic (fun t ht => ih t ht (hv t ht)) h
  case listType | tupleType | runtime | constType =>
    intro ts ih hv h
    simp only [Term.validate] at hv
    simp only [Term.transform, wrap_panic] at h
    exact ih hv h
  case ext =>
    intro e i args b ih hv h
    simp only [Ty.validate, Bool.and_eq_true, validateTerms_iff] at hv
    obtain ⟨hv, hd⟩ := hv
    simp only [Ty.transform] at h
    cases hr : tr e i args b with
    | error => rw [hr] at h; cases h
    | panic => exact htr _ _ _ _ hr
    | ok r =>
      rw [hr] at h
      cases r with
      | some nt => cases h
      | none =>
        simp only [Outcome.andThen, transformTerms_seq] at h
        cases hs : seqT (Term.transform env tr) args with
        | error => rw [hs] at h; cases h
        | panic => exact seq_panic (fun t ht => ih t ht (hv t ht)) hs
        | ok p =>
          obtain ⟨args', c⟩ := p
          rw [hs] at h
          cases c with
          | false => cases h
          | true =>
            simp only [if_true] at h
            cases hdef : env e i with
            | none => rw [hdef] at hd; cases hd
            | some d =>
              rw [hdef] at hd
              simp only [Bool.and_eq_true, decide_eq_true_eq] at hd
              have hrel := seq_forall (R := fun t t' => ∀ x, t = .runtime x → ∃ x', t' = .runtime x') (fun t _ t' c h' x hx => by
                subst hx
                simp only [Term.transform, wrap_ok] at h'
                obtain ⟨a, -, rfl⟩ := h'
                exact ⟨a, rfl⟩) hs
              have := boundOf_some hrel d (by rw [hd.2]; rfl)
              obtain ⟨b', hb'⟩ := Option.isSome_iff_exists.1 this
              unfold reinstantiate at h
              rw [hdef] at h
              simp only [hb'] at h
              split at h
              · rename_i hx; split at hx <;> cases h
              · cases h
              · rename_i hx
                split at hx <;> cases hx
  case function =>
    intro i o ih1 ih2 hv h
    simp only [Ty.validate, Bool.and_eq_true, validateRow_iff] at hv
    simp only [Ty.transform, transformRow_seq] at h
    have p1 := seq_panic fun t ht => ih1 t ht (hv.1 t ht)
    have p2 := seq_panic fun t ht => ih2 t ht (hv.2 t ht)
    cases h1 : seqT (RTy.transform env tr) i with
    | error => rw [h1] at h; cases h
    | panic => exact p1 h1
    | ok p =>
      rw [h1] at h
      cases h2 : seqT (RTy.transform env tr) o with
      | error => rw [h2] at h; cases h
      | panic => exact p2 h2
      | ok q => rw [h2] at h; cases h
  case sumGen =>
    intro rows b ih hv h
    simp only [Ty.validate, validateRows_iff] at hv
    simp only [Ty.transform, wrap_panic, transformRows_seq] at h
    exact seq_panic (fun r hr => seq_panic fun t ht => ih r hr t ht (hv r hr t ht)) h
  case rty =>
    intro t ih hv h
    simp only [RTy.validate] at hv
    simp only [RTy.transform, wrap_panic] at h
    exact ih hv h
  all_goals
    intros
    simp [Term.transform, Ty.transform, RTy.transform]

/-! ## Transforming again -/

theorem again_all (env : Env) (tr : Transformer) (S : String → String → Prop)
    (htr : ∀ e i args b, ¬ S e i → tr e i args b = .ok none) :
    (∀ t : Term, t.built = true → t.avoids S → t.transform env tr = .ok (t, false)) ∧
    (∀ t : Ty, t.built = true → t.avoids S → t.transform env tr = .ok (t, false)) ∧
    ∀ t : RTy, t.built = true → t.avoids S → t.transform env tr = .ok (t, false) := by
  have seqS : ∀ {α : Type} {f : α → Outcome (α × Bool)} {ts : List α},
      (∀ t ∈ ts, f t = .ok (t, false)) → seqT f ts = .ok (ts, false) := by
    intro α f ts h
    induction ts with
    | nil => rfl
    | cons t ts ih =>
      exact seq_cons.2 ⟨_, _, _, _, h t List.mem_cons_self, ih fun x hx => h x (List.mem_cons_of_mem _ hx), rfl, rfl⟩
  apply syntax_induction
  case list | listConcat | tuple | tupleConcat =>
    intro ts ih hb ha
    simp only [Term.built, builtTerms_iff] at hb
    simp only [Term.avoids, avoidsTerms_iff] at ha
    simp only [Term.transform, wrap_ok, transformTerms_seq]
    exact ⟨_, seqS fun t ht => ih t ht (hb t ht) (ha t ht), rfl⟩
  case listType | tupleType | runtime | constType =>
    intro ts ih hb ha
    simp only [Term.built] at hb
    simp only [Term.avoids] at ha
    simp only [Term.transform, wrap_ok]
    exact ⟨_, ih hb ha, rfl⟩
  case ext =>
    intro e i args b ih hb ha
    simp only [Ty.built, builtTerms_iff] at hb
    simp only [Ty.avoids, avoidsTerms_iff] at ha
    simp only [Ty.transform, andThen_ok]
    refine ⟨_, htr e i args b ha.1, ?_⟩
    simp only [andThen_ok, transformTerms_seq]
    exact ⟨_, seqS fun t ht => ih t ht (hb t ht) (ha.2 t ht), rfl⟩
  case function =>
    intro i o ih1 ih2 hb ha
    simp only [Ty.built, Bool.and_eq_true, builtRow_iff] at hb
    simp only [Ty.avoids, avoidsRow_iff] at ha
    simp only [Ty.transform, andThen_ok, transformRow_seq]
    exact ⟨_, seqS fun t ht => ih1 t ht (hb.1 t ht) (ha.1 t ht), _, seqS fun t ht => ih2 t ht (hb.2 t ht) (ha.2 t ht), rfl⟩
  case sumGen =>
    intro rows b ih hb ha
    simp only [Ty.built, Bool.and_eq_true, builtRows_iff, decide_eq_true_eq] at hb
    simp only [Ty.avoids, avoidsRows_iff] at ha
    simp only [Ty.transform, wrap_ok, transformRows_seq]
    exact ⟨_, seqS fun r hr => seqS fun t ht => ih r hr t ht (hb.1.1 r hr t ht) (ha r hr t ht), by rw [Ty.general, hb.1.2]⟩
  case rty =>
    intro t ih hb ha
    simp only [RTy.built] at hb
    simp only [RTy.avoids] at ha
    simp only [RTy.transform, wrap_ok]
    exact ⟨_, ih hb ha, rfl⟩
  all_goals
    intros
    simp [Term.transform, Ty.transform, RTy.transform]

end Verif.Types
