import Verif.Types.Transform
import Verif.Types.SubstLemmas

namespace Verif.Types

/-! ## Sequences -/

/-- Transforms the items of a list. -/
def seqT {α : Type} (f : α → Outcome (α × Bool)) : List α → Outcome (List α × Bool)
  | [] => .ok ([], false)
  | t :: ts => (f t).andThen fun p => (seqT f ts).andThen fun q => .ok (p.1 :: q.1, p.2 || q.2)

theorem transformTerms_seq (env : Env) (tr : Transformer) (ts : List Term) :
    transformTerms env tr ts = seqT (Term.transform env tr) ts := by
  induction ts with
  | nil => rfl
  | cons t ts ih => simp only [transformTerms, seqT, ih]
theorem transformRow_seq (env : Env) (tr : Transformer) (ts : List RTy) :
    transformRow env tr ts = seqT (RTy.transform env tr) ts := by
  induction ts with
  | nil => rfl
  | cons t ts ih => simp only [transformRow, seqT, ih]
theorem transformRows_seq (env : Env) (tr : Transformer) (ts : List (List RTy)) :
    transformRows env tr ts = seqT (seqT (RTy.transform env tr)) ts := by
  induction ts with
  | nil => rfl
  | cons t ts ih => simp only [transformRows, seqT, ih, transformRow_seq]

theorem andThen_ok {α β : Type} {r : Outcome α} {f : α → Outcome β} {b : β} :
    r.andThen f = .ok b ↔ ∃ a, r = .ok a ∧ f a = .ok b := by
  cases r <;> simp [Outcome.andThen]

theorem wrap_ok {α β : Type} {r : Outcome (α × Bool)} {f : α → β} {b : β} {c : Bool} :
    r.wrap f = .ok (b, c) ↔ ∃ a, r = .ok (a, c) ∧ b = f a := by
  unfold Outcome.wrap
  rw [andThen_ok]
  constructor
  · rintro ⟨⟨a, c'⟩, h, he⟩
    cases he
    exact ⟨a, h, rfl⟩
  · rintro ⟨a, h, rfl⟩
    exact ⟨_, h, rfl⟩

theorem seq_cons {α : Type} {f : α → Outcome (α × Bool)} {t : α} {ts l : List α} {c : Bool} :
    seqT f (t :: ts) = .ok (l, c) ↔ ∃ t' c1 ts' c2, f t = .ok (t', c1) ∧ seqT f ts = .ok (ts', c2) ∧ l = t' :: ts' ∧
      c = (c1 || c2) := by
  simp only [seqT, andThen_ok]
  constructor
  · rintro ⟨⟨t', c1⟩, h1, ⟨ts', c2⟩, h2, h3⟩
    cases h3
    exact ⟨t', c1, ts', c2, h1, h2, rfl, rfl⟩
  · rintro ⟨t', c1, ts', c2, h1, h2, rfl, rfl⟩
    exact ⟨_, h1, _, h2, rfl⟩

theorem seq_unchanged {α : Type} {f : α → Outcome (α × Bool)} : ∀ {ts ts' : List α},
    (∀ t ∈ ts, ∀ t', f t = .ok (t', false) → t' = t) → seqT f ts = .ok (ts', false) → ts' = ts
  | [], ts', _, h => by cases h; rfl
  | t :: ts, l, hf, h => by
    obtain ⟨t', c1, ts', c2, h1, h2, rfl, h3⟩ := seq_cons.1 h
    rw [eq_comm, Bool.or_eq_false_iff] at h3
    rw [h3.1] at h1
    rw [h3.2] at h2
    rw [hf t List.mem_cons_self t' h1, seq_unchanged (fun x hx => hf x (List.mem_cons_of_mem _ hx)) h2]

theorem seq_changed {α : Type} {f : α → Outcome (α × Bool)} : ∀ {ts ts' : List α},
    (∀ t ∈ ts, ∀ t', f t = .ok (t', true) → t' ≠ t) → seqT f ts = .ok (ts', true) → ts' ≠ ts
  | [], ts', _, h => by cases h
  | t :: ts, l, hf, h => by
    obtain ⟨t', c1, ts', c2, h1, h2, rfl, h3⟩ := seq_cons.1 h
    rw [eq_comm, Bool.or_eq_true] at h3
    intro he
    simp only [List.cons.injEq] at he
    rcases h3 with rfl | rfl
    · exact hf t List.mem_cons_self t' h1 he.1
    · exact seq_changed (fun x hx => hf x (List.mem_cons_of_mem _ hx)) h2 he.2

theorem seq_rel {α : Type} {f : α → Outcome (α × Bool)} {R : α → α → Prop} : ∀ {ts ts' : List α},
    (∀ t ∈ ts, ∀ t', (∃ c, f t = .ok (t', c)) ↔ R t t') → ((∃ c, seqT f ts = .ok (ts', c)) ↔ List.Forall₂ R ts ts')
  | [], ts', _ => by
    constructor
    · rintro ⟨c, h⟩; cases h; exact .nil
    · intro h; cases h; exact ⟨false, rfl⟩
  | t :: ts, l, hf => by
    constructor
    · rintro ⟨c, h⟩
      obtain ⟨t', c1, ts', c2, h1, h2, rfl, h3⟩ := seq_cons.1 h
      exact .cons ((hf t List.mem_cons_self t').1 ⟨c1, h1⟩)
        ((seq_rel fun x hx => hf x (List.mem_cons_of_mem _ hx)).1 ⟨c2, h2⟩)
    · intro h
      cases h with
      | cons h1 h2 =>
        obtain ⟨c1, h1⟩ := (hf t List.mem_cons_self _).2 h1
        obtain ⟨c2, h2⟩ := (seq_rel fun x hx => hf x (List.mem_cons_of_mem _ hx)).2 h2
        exact ⟨_, seq_cons.2 ⟨_, c1, _, c2, h1, h2, rfl, rfl⟩⟩

/-- What holds of each item and its result holds of the lists. -/
theorem seq_forall {α : Type} {f : α → Outcome (α × Bool)} {R : α → α → Prop} : ∀ {ts ts' : List α} {c : Bool},
    (∀ t ∈ ts, ∀ t' c, f t = .ok (t', c) → R t t') → seqT f ts = .ok (ts', c) → List.Forall₂ R ts ts'
  | [], ts', c, _, h => by cases h; exact .nil
  | t :: ts, l, c, hf, h => by
    obtain ⟨t', c1, ts', c2, h1, h2, rfl, h3⟩ := seq_cons.1 h
    exact .cons (hf t List.mem_cons_self t' c1 h1) (seq_forall (fun x hx => hf x (List.mem_cons_of_mem _ hx)) h2)

theorem seq_panic {α : Type} {f : α → Outcome (α × Bool)} : ∀ {ts : List α},
    (∀ t ∈ ts, f t ≠ .panic) → seqT f ts ≠ .panic
  | [], _, h => by cases h
  | t :: ts, hf, h => by
    have h1 := hf t List.mem_cons_self
    have h2 := seq_panic fun x hx => hf x (List.mem_cons_of_mem _ hx)
    simp only [seqT] at h
    cases hx : f t with
    | ok p =>
      rw [hx] at h
      cases hy : seqT f ts with
      | ok q => rw [hy] at h; cases h
      | error => rw [hy] at h; cases h
      | panic => exact h2 hy
    | error => rw [hx] at h; cases h
    | panic => exact h1 hx

theorem seq_total {α : Type} {f : α → Outcome (α × Bool)} : ∀ {ts : List α},
    (∀ t ∈ ts, ∃ p, f t = .ok p) → ∃ p, seqT f ts = .ok p
  | [], _ => ⟨_, rfl⟩
  | t :: ts, hf => by
    obtain ⟨p, hp⟩ := hf t List.mem_cons_self
    obtain ⟨q, hq⟩ := seq_total fun x hx => hf x (List.mem_cons_of_mem _ hx)
    exact ⟨(p.1 :: q.1, p.2 || q.2), by simp [seqT, hp, hq, Outcome.andThen]⟩

theorem wrap_panic {α β : Type} {r : Outcome (α × Bool)} {f : α → β} : r.wrap f = .panic ↔ r = .panic := by
  cases r <;> simp [Outcome.wrap, Outcome.andThen]

/-! ## The flag -/

theorem unchanged_all (env : Env) (tr : Transformer) :
    (∀ t : Term, t.built = true → ∀ t', t.transform env tr = .ok (t', false) → t' = t) ∧
    (∀ t : Ty, t.built = true → ∀ t', t.transform env tr = .ok (t', false) → t' = t) ∧
    ∀ t : RTy, t.built = true → ∀ t', t.transform env tr = .ok (t', false) → t' = t := by
  apply syntax_induction
  case list | listConcat | tuple | tupleConcat =>
    intro ts ih hb t' h
    simp only [Term.built, builtTerms_iff] at hb
    simp only [Term.transform, wrap_ok, transformTerms_seq] at h
    obtain ⟨a, h, rfl⟩ := h
    rw [seq_unchanged (fun t ht t' h' => ih t ht (hb t ht) t' h') h]
  case listType | tupleType | runtime | constType =>
    intro ts ih hb t' h
    simp only [Term.built] at hb
    simp only [Term.transform, wrap_ok] at h
    obtain ⟨a, h, rfl⟩ := h
    rw [ih hb a h]
  case ext =>
    intro e i args b ih hb t' h
    simp only [Ty.built, builtTerms_iff] at hb
    simp only [Ty.transform, andThen_ok] at h
    obtain ⟨r, -, h⟩ := h
    cases r with
    | some nt => cases h
    | none =>
      simp only [andThen_ok] at h
      obtain ⟨⟨args', c⟩, h1, h⟩ := h
      rw [transformTerms_seq] at h1
      cases c with
      | true =>
        simp only [if_true, andThen_ok] at h
        obtain ⟨_, _, h⟩ := h
        cases h
      | false =>
        cases h
        rw [seq_unchanged (fun t ht t' h' => ih t ht (hb t ht) t' h') h1]
  case function =>
    intro i o ih1 ih2 hb t' h
    simp only [Ty.built, Bool.and_eq_true, builtRow_iff] at hb
    simp only [Ty.transform, andThen_ok, transformRow_seq] at h
    obtain ⟨⟨i', c1⟩, h1, ⟨o', c2⟩, h2, h⟩ := h
    simp only [Outcome.ok.injEq, Prod.mk.injEq, Bool.or_eq_false_iff] at h
    obtain ⟨rfl, rfl, rfl⟩ := h
    rw [seq_unchanged (fun t ht t' h' => ih1 t ht (hb.1 t ht) t' h') h1,
      seq_unchanged (fun t ht t' h' => ih2 t ht (hb.2 t ht) t' h') h2]
  case sumGen =>
    intro rows b ih hb t' h
    simp only [Ty.built, Bool.and_eq_true, builtRows_iff, decide_eq_true_eq] at hb
    simp only [Ty.transform, wrap_ok, transformRows_seq] at h
    obtain ⟨rows', h, rfl⟩ := h
    rw [seq_unchanged (fun r hr r' h' => seq_unchanged (fun t ht t' h'' => ih r hr t ht (hb.1.1 r hr t ht) t' h'') h') h]
    rw [Ty.general, hb.1.2]
  case rty =>
    intro t ih hb t' h
    simp only [RTy.built] at hb
    simp only [RTy.transform, wrap_ok] at h
    obtain ⟨a, h, rfl⟩ := h
    rw [ih hb a h]
  all_goals
    intros
    simp_all [Term.transform, Ty.transform, RTy.transform]

theorem changed_all (env : Env) (tr : Transformer) (hne : ∀ e i args b t, tr e i args b = .ok (some t) → t ≠ .ext e i args b) :
    (∀ (t t' : Term), t.transform env tr = .ok (t', true) → t' ≠ t) ∧
    (∀ (t t' : Ty), t.transform env tr = .ok (t', true) → t' ≠ t) ∧
    ∀ (t t' : RTy), t.transform env tr = .ok (t', true) → t' ≠ t := by
  apply syntax_induction
  case list | listConcat | tuple | tupleConcat =>
    intro ts ih t' h
    simp only [Term.transform, wrap_ok, transformTerms_seq] at h
    obtain ⟨a, h, rfl⟩ := h
    intro he
    cases he
    exact seq_changed (fun t ht t' h' => ih t ht t' h') h rfl
  case listType | tupleType | runtime | constType =>
    intro ts ih t' h
    simp only [Term.transform, wrap_ok] at h
    obtain ⟨a, h, rfl⟩ := h
    intro he
    cases he
    exact ih _ h rfl
  case ext =>
    intro e i args b ih t' h
    simp only [Ty.transform, andThen_ok] at h
    obtain ⟨r, hr, h⟩ := h
    cases r with
    | some nt => cases h; exact hne _ _ _ _ _ hr
    | none =>
      simp only [andThen_ok] at h
      obtain ⟨⟨args', c⟩, h1, h⟩ := h
      rw [transformTerms_seq] at h1
      cases c with
      | true =>
        simp only [if_true, andThen_ok] at h
        obtain ⟨nt, hn, h⟩ := h
        cases h
        have := seq_changed (fun t ht t' h' => ih t ht t' h') h1
        unfold reinstantiate at hn
        split at hn
        · cases hn
        · split at hn
          · split at hn
            · cases hn
              intro he
              cases he
              exact this rfl
            · cases hn
          · cases hn
      | false => cases h
  case function =>
    intro i o ih1 ih2 t' h
    simp only [Ty.transform, andThen_ok, transformRow_seq] at h
    obtain ⟨⟨i', c1⟩, h1, ⟨o', c2⟩, h2, h⟩ := h
    simp only [Outcome.ok.injEq, Prod.mk.injEq, Bool.or_eq_true] at h
    obtain ⟨rfl, h⟩ := h
    intro he
    cases he
    rcases h with rfl | rfl
    · exact seq_changed (fun t ht t' h' => ih1 t ht t' h') h1 rfl
    · exact seq_changed (fun t ht t' h' => ih2 t ht t' h') h2 rfl
  case sumGen =>
    intro rows b ih t' h
    simp only [Ty.transform, wrap_ok, transformRows_seq] at h
    obtain ⟨rows', h, rfl⟩ := h
    intro he
    cases he
    exact seq_changed (fun r hr r' h' => seq_changed (fun t ht t' h'' => ih r hr t ht t' h'') h') h rfl
  case rty =>
    intro t ih t' h
    simp only [RTy.transform, wrap_ok] at h
    obtain ⟨a, h, rfl⟩ := h
    intro he
    cases he
    exact ih _ h rfl
  all_goals
    intros
    simp_all [Term.transform, Ty.transform, RTy.transform]

/-! ## The result -/

theorem result_all (env : Env) (Γ : List Term) (tr : Transformer) :
    (∀ t : Term, t.validate env Γ = true → t.built = true → ∀ t', (∃ c, t.transform env tr = .ok (t', c)) ↔ TermReplaced env tr t t') ∧
    (∀ t : Ty, t.validate env Γ = true → t.built = true → ∀ t', (∃ c, t.transform env tr = .ok (t', c)) ↔ TyReplaced env tr t t') ∧
    ∀ t : RTy, t.validate env Γ = true → t.built = true → ∀ t', (∃ c, t.transform env tr = .ok (t', c)) ↔ RTyReplaced env tr t t' := by
  apply syntax_induction
  case list | listConcat | tuple | tupleConcat =>
    intro ts ih hv hb t'
    simp only [Term.built, builtTerms_iff] at hb
    simp only [Term.validate, validateTerms_iff] at hv
    simp only [Term.transform, wrap_ok, transformTerms_seq]
    have key := fun ts' => seq_rel (ts' := ts') fun t ht t' => ih t ht (hv t ht) (hb t ht) t'
    constructor
    · rintro ⟨c, a, h, rfl⟩
      constructor
      exact (key a).1 ⟨c, h⟩
    · intro h
      cases h
      rename_i h
      obtain ⟨c, h⟩ := (key _).2 h
      exact ⟨c, _, h, rfl⟩
  case listType | tupleType | runtime | constType =>
    intro ts ih hv hb t'
    simp only [Term.built] at hb
    simp only [Term.validate] at hv
    simp only [Term.transform, wrap_ok]
    constructor
    · rintro ⟨c, a, h, rfl⟩
      constructor
      exact (ih hv hb a).1 ⟨c, h⟩
    · intro h
      cases h
      rename_i h
      obtain ⟨c, h⟩ := (ih hv hb _).2 h
      exact ⟨c, _, h, rfl⟩
  case ext =>
    intro e i args b ih hv hb t'
    simp only [Ty.built, builtTerms_iff] at hb
    simp only [Ty.validate, Bool.and_eq_true, validateTerms_iff] at hv
    obtain ⟨hv, hd⟩ := hv
    have key := fun ts' => seq_rel (ts' := ts') fun t ht t' => ih t ht (hv t ht) (hb t ht) t'
    cases hdef : env e i with
    | none => rw [hdef] at hd; cases hd
    | some d =>
    rw [hdef] at hd
    simp only [Bool.and_eq_true, decide_eq_true_eq] at hd
    simp only [Ty.transform, andThen_ok]
    constructor
    · rintro ⟨c, r, hr, h⟩
      cases r with
      | some nt => cases h; exact .replaced hr
      | none =>
        simp only [andThen_ok] at h
        obtain ⟨⟨args', c'⟩, h1, h⟩ := h
        rw [transformTerms_seq] at h1
        cases c' with
        | true =>
          simp only [if_true, andThen_ok] at h
          obtain ⟨nt, hn, h⟩ := h
          cases h
          unfold reinstantiate at hn
          rw [hdef] at hn
          simp only at hn
          split at hn
          · rename_i hck
            split at hn
            · rename_i b' hb'
              cases hn
              exact .kept hr ((key args').1 ⟨_, h1⟩) hdef hck hb'
            · cases hn
          · cases hn
        | false =>
          cases h
          have := seq_unchanged (fun t ht t' h' => (unchanged_all env tr).1 t (hb t ht) t' h') h1
          have hk := (key args').1 ⟨_, h1⟩
          rw [this] at hk ⊢
          exact .kept hr hk hdef hd.1 hd.2
    · intro h
      cases h with
      | replaced hr => exact ⟨true, _, hr, rfl⟩
      | kept hr h1 hd' hck hb' =>
        cases hdef.symm.trans hd'
        obtain ⟨c, h1⟩ := (key _).2 h1
        refine ⟨c, none, hr, ?_⟩
        simp only [andThen_ok]
        refine ⟨_, (transformTerms_seq env tr args).trans h1, ?_⟩
        cases c with
        | true =>
          simp only [if_true, andThen_ok]
          refine ⟨_, ?_, rfl⟩
          unfold reinstantiate
          rw [hdef]
          simp only [hck, if_true, hb']
        | false =>
          have := seq_unchanged (fun t ht t' h' => (unchanged_all env tr).1 t (hb t ht) t' h') h1
          subst this
          rw [hd.2] at hb'
          cases hb'
          rfl
  case function =>
    intro i o ih1 ih2 hv hb t'
    simp only [Ty.built, Bool.and_eq_true, builtRow_iff] at hb
    simp only [Ty.validate, Bool.and_eq_true, validateRow_iff] at hv
    have k1 := fun ts' => seq_rel (ts' := ts') fun t ht t' => ih1 t ht (hv.1 t ht) (hb.1 t ht) t'
    have k2 := fun ts' => seq_rel (ts' := ts') fun t ht t' => ih2 t ht (hv.2 t ht) (hb.2 t ht) t'
    simp only [Ty.transform, andThen_ok, transformRow_seq]
    constructor
    · rintro ⟨c, ⟨i', c1⟩, h1, ⟨o', c2⟩, h2, h⟩
      cases h
      exact .function ((k1 _).1 ⟨_, h1⟩) ((k2 _).1 ⟨_, h2⟩)
    · intro h
      cases h with
      | function h1 h2 =>
        obtain ⟨c1, h1⟩ := (k1 _).2 h1
        obtain ⟨c2, h2⟩ := (k2 _).2 h2
        exact ⟨_, _, h1, _, h2, rfl⟩
  case sumGen =>
    intro rows b ih hv hb t'
    simp only [Ty.built, Bool.and_eq_true, builtRows_iff, decide_eq_true_eq] at hb
    simp only [Ty.validate, validateRows_iff] at hv
    have key := fun rows' => seq_rel (ts' := rows') fun r hr r' =>
      seq_rel (ts := r) (ts' := r') fun t ht t' => ih r hr t ht (hv r hr t ht) (hb.1.1 r hr t ht) t'
    simp only [Ty.transform, wrap_ok, transformRows_seq]
    constructor
    · rintro ⟨c, rows', h, rfl⟩
      exact .sumGen ((key _).1 ⟨c, h⟩)
    · intro h
      cases h with
      | sumGen h =>
        obtain ⟨c, h⟩ := (key _).2 h
        exact ⟨c, _, h, rfl⟩
  case rty =>
    intro t ih hv hb t'
    simp only [RTy.built] at hb
    simp only [RTy.validate] at hv
    simp only [RTy.transform, wrap_ok]
    constructor
    · rintro ⟨c, a, h, rfl⟩
      exact .ty ((ih hv hb a).1 ⟨c, h⟩)
    · intro h
      cases h with
      | ty h =>
        obtain ⟨c, h⟩ := (ih hv hb _).2 h
        exact ⟨c, _, h, rfl⟩
  all_goals
    intros
    constructor
    · rintro ⟨c, h⟩
      cases h
      constructor
    · intro h
      cases h
      exact ⟨_, rfl⟩

end Verif.Types
