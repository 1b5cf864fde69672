import Verif.Ident.Model

/-!
# C41: identifier paths

Source: `/repo/hugr-core/src/hugr/ident.rs`.
-/
namespace Verif.Ident

/-! ## Specification -/

/-- An identifier: a word character that is not a digit, followed by word characters. -/
def IsIdent (C : Classes) (s : List Char) : Prop :=
  ∃ h t, s = h :: t ∧ C.word h = true ∧ C.digit h = false ∧ ∀ c ∈ t, C.word c = true

/-- The components joined by dots. -/
def joinDots : List (List Char) → List Char
  | [] => []
  | [c] => c
  | c :: cs => c ++ '.' :: joinDots cs

/-- A path with the given components. -/
def IsPath (C : Classes) (cs : List (List Char)) (n : List Char) : Prop :=
  cs ≠ [] ∧ (∀ c ∈ cs, IsIdent C c) ∧ n = joinDots cs

/-! ## The language of a regular expression -/

/-- Repetition of a language. -/
inductive Rep (L : List Char → Prop) : List Char → Prop
  | nil : Rep L []
  | app (x y : List Char) : L x → Rep L y → Rep L (x ++ y)

/-- The strings matched by an expression. -/
def Rx.Lang : Rx → List Char → Prop
  | .never => fun _ => False
  | .empty => fun s => s = []
  | .cls p => fun s => ∃ c, s = [c] ∧ p c = true
  | .seq a b => fun s => ∃ x y, s = x ++ y ∧ a.Lang x ∧ b.Lang y
  | .alt a b => fun s => a.Lang s ∨ b.Lang s
  | .star a => Rep a.Lang

theorem nullable_iff (r : Rx) : r.nullable = true ↔ r.Lang [] := by
  induction r with
  | never => simp [Rx.nullable, Rx.Lang]
  | empty => simp [Rx.nullable, Rx.Lang]
  | cls p => simp [Rx.nullable, Rx.Lang]
  | seq a b iha ihb =>
    simp only [Rx.nullable, Rx.Lang, Bool.and_eq_true, iha, ihb]
    constructor
    · rintro ⟨h1, h2⟩; exact ⟨[], [], rfl, h1, h2⟩
    · rintro ⟨x, y, h, h1, h2⟩
      have := List.append_eq_nil_iff.1 h.symm
      rw [this.1] at h1; rw [this.2] at h2
      exact ⟨h1, h2⟩
  | alt a b iha ihb => simp [Rx.nullable, Rx.Lang, iha, ihb]
  | star a _ => simp only [Rx.nullable, Rx.Lang, true_iff]; exact .nil

theorem rep_cons {L : List Char → Prop} {s : List Char} (h : Rep L s) :
    ∀ c cs, s = c :: cs → ∃ x y, cs = x ++ y ∧ L (c :: x) ∧ Rep L y := by
  induction h with
  | nil => intro c cs h; simp at h
  | app x y hx hy ih =>
    intro c cs h
    cases x with
    | nil => exact ih c cs h
    | cons d x =>
      simp only [List.cons_append, List.cons.injEq] at h
      obtain ⟨rfl, rfl⟩ := h
      exact ⟨x, y, rfl, hx, hy⟩

theorem deriv_iff (r : Rx) (c : Char) (s : List Char) : (r.deriv c).Lang s ↔ r.Lang (c :: s) := by
  induction r generalizing s with
  | never => simp [Rx.deriv, Rx.Lang]
  | empty => simp [Rx.deriv, Rx.Lang]
  | cls p =>
    simp only [Rx.deriv, Rx.Lang]
    split
    · rename_i h
      simp only [Rx.Lang, List.cons.injEq]
      constructor
      · rintro rfl; exact ⟨c, ⟨rfl, rfl⟩, h⟩
      · rintro ⟨_, ⟨_, h⟩, _⟩; exact h
    · rename_i h
      simp only [Rx.Lang, false_iff, List.cons.injEq]
      rintro ⟨_, ⟨rfl, _⟩, h'⟩; exact h h'
  | seq a b iha ihb =>
    have key : (∃ x y, s = x ++ y ∧ a.Lang (c :: x) ∧ b.Lang y) ∨ (a.Lang [] ∧ b.Lang (c :: s)) ↔
        ∃ x y, c :: s = x ++ y ∧ a.Lang x ∧ b.Lang y := by
      constructor
      · rintro (⟨x, y, rfl, h1, h2⟩ | ⟨h1, h2⟩)
        · exact ⟨c :: x, y, rfl, h1, h2⟩
        · exact ⟨[], c :: s, rfl, h1, h2⟩
      · rintro ⟨x, y, h, h1, h2⟩
        cases x with
        | nil => right; simp only [List.nil_append] at h; rw [h]; exact ⟨h1, h2⟩
        | cons d x =>
          simp only [List.cons_append, List.cons.injEq] at h
          obtain ⟨rfl, rfl⟩ := h
          exact Or.inl ⟨x, y, rfl, h1, h2⟩
    simp only [Rx.deriv]
    split
    · rename_i hn
      rw [nullable_iff] at hn
      simp only [Rx.Lang, iha, ihb]
      rw [← key]
      constructor
      · rintro (h | h)
        · exact Or.inl h
        · exact Or.inr ⟨hn, h⟩
      · rintro (h | h)
        · exact Or.inl h
        · exact Or.inr h.2
    · rename_i hn
      rw [nullable_iff] at hn
      simp only [Rx.Lang, iha]
      rw [← key]
      constructor
      · exact Or.inl
      · rintro (h | h)
        · exact h
        · exact absurd h.1 hn
  | alt a b iha ihb => simp [Rx.deriv, Rx.Lang, iha, ihb]
  | star a ih =>
    simp only [Rx.deriv, Rx.Lang, ih]
    constructor
    · rintro ⟨x, y, rfl, h1, h2⟩; exact .app (c :: x) y h1 h2
    · intro h
      obtain ⟨x, y, rfl, h1, h2⟩ := rep_cons h c s rfl
      exact ⟨x, y, rfl, h1, h2⟩

/-- The matcher accepts exactly the strings of the expression's language. -/
theorem isMatch_iff (r : Rx) (s : List Char) : r.isMatch s = true ↔ r.Lang s := by
  induction s generalizing r with
  | nil => exact nullable_iff r
  | cons c s ih => rw [Rx.isMatch, ih, deriv_iff]

/-! ## The path expression -/

theorem rep_cls (p : Char → Bool) (s : List Char) :
    Rep (fun s => ∃ c, s = [c] ∧ p c = true) s ↔ ∀ c ∈ s, p c = true := by
  constructor
  · intro h
    induction h with
    | nil => simp
    | app x y hx _ ih =>
      obtain ⟨c, rfl, hc⟩ := hx
      simp only [List.cons_append, List.nil_append, List.mem_cons, forall_eq_or_imp]
      exact ⟨hc, ih⟩
  · intro h
    induction s with
    | nil => exact .nil
    | cons c s ih =>
      exact .app [c] s ⟨c, rfl, h c (by simp)⟩ (ih (fun d hd => h d (by simp [hd])))

theorem component_iff (C : Classes) (s : List Char) : (componentRegex C).Lang s ↔ IsIdent C s := by
  simp only [componentRegex, Rx.Lang, rep_cls, IsIdent]
  constructor
  · rintro ⟨x, y, rfl, ⟨c, rfl, hc⟩, hy⟩
    simp only [Bool.and_eq_true, Bool.not_eq_true'] at hc
    exact ⟨c, y, rfl, hc.1, hc.2, hy⟩
  · rintro ⟨h, t, rfl, h1, h2, h3⟩
    exact ⟨[h], t, rfl, ⟨h, rfl, by simp [h1, h2]⟩, h3⟩

theorem joinDots_cons (c : List Char) (cs : List (List Char)) (h : cs ≠ []) :
    joinDots (c :: cs) = c ++ '.' :: joinDots cs := by
  cases cs with
  | nil => exact absurd rfl h
  | cons => rfl

/-- Dot-prefixed components, concatenated. -/
def dotted : List (List Char) → List Char
  | [] => []
  | c :: cs => '.' :: c ++ dotted cs

theorem joinDots_dotted (c : List Char) (cs : List (List Char)) :
    joinDots (c :: cs) = c ++ dotted cs := by
  induction cs generalizing c with
  | nil => simp [joinDots, dotted]
  | cons d cs ih => rw [joinDots_cons _ _ (by simp), ih, dotted]; simp

theorem rep_dotted (C : Classes) (s : List Char) :
    Rep (fun s => ∃ x y, s = x ++ y ∧ (∃ c, x = [c] ∧ (c == '.') = true) ∧ IsIdent C y) s ↔
      ∃ cs, (∀ c ∈ cs, IsIdent C c) ∧ s = dotted cs := by
  constructor
  · intro h
    induction h with
    | nil => exact ⟨[], by simp, rfl⟩
    | app x y hx _ ih =>
      obtain ⟨_, z, rfl, ⟨c, rfl, hc⟩, hz⟩ := hx
      obtain ⟨cs, hcs, rfl⟩ := ih
      simp only [beq_iff_eq] at hc; subst hc
      exact ⟨z :: cs, by simpa using ⟨hz, hcs⟩, by simp [dotted]⟩
  · rintro ⟨cs, hcs, rfl⟩
    induction cs with
    | nil => exact .nil
    | cons c cs ih =>
      refine .app ('.' :: c) (dotted cs) ?_ (ih (fun d hd => hcs d (by simp [hd])))
      exact ⟨['.'], c, rfl, ⟨'.', rfl, by simp⟩, hcs c (by simp)⟩

/-- **C41** `IdentList::new` accepts exactly the non-empty dot-separated lists of identifiers, and
keeps the string. -/
theorem C41_new_iff (C : Classes) (n r : List Char) :
    IdentList.new C n = some r ↔ r = n ∧ ∃ cs, IsPath C cs n := by
  have key : (pathRegex C).isMatch n = true ↔ ∃ cs, IsPath C cs n := by
    rw [isMatch_iff]
    have hL : (componentRegex C).Lang = IsIdent C := funext fun s => propext (component_iff C s)
    simp only [pathRegex, Rx.Lang, hL, rep_dotted, IsPath]
    constructor
    · rintro ⟨x, y, rfl, hx, cs, hcs, rfl⟩
      exact ⟨x :: cs, by simp, by simpa using ⟨hx, hcs⟩, (joinDots_dotted x cs).symm⟩
    · rintro ⟨cs, hne, hcs, rfl⟩
      cases cs with
      | nil => exact absurd rfl hne
      | cons c cs =>
        exact ⟨c, dotted cs, joinDots_dotted c cs, hcs c (by simp), cs,
          fun d hd => hcs d (by simp [hd]), rfl⟩
  unfold IdentList.new
  split
  · rename_i h
    simp only [Option.some.injEq, key.1 h, and_true]
    exact eq_comm
  · rename_i h
    simp only [reduceCtorEq, false_iff, not_and]
    exact fun _ h' => h (key.2 h')

/-! ## Splitting -/

theorem rsplit_none (s : List Char) : rsplitDot s = none ↔ '.' ∉ s := by
  induction s with
  | nil => simp [rsplitDot]
  | cons c s ih =>
    simp only [rsplitDot]
    cases h : rsplitDot s with
    | none =>
      have := ih.1 h
      by_cases hc : c = '.'
      · simp [hc]
      · simp [hc, this, Ne.symm hc]
    | some p =>
      have : '.' ∈ s := Decidable.by_contra (fun hn => by rw [ih.2 hn] at h; simp at h)
      simp [this]

theorem rsplit_append (p s : List Char) (h : '.' ∉ s) :
    rsplitDot (p ++ '.' :: s) = some (p, s) := by
  induction p with
  | nil => simp [rsplitDot, (rsplit_none s).2 h]
  | cons c p ih => simp [rsplitDot, ih]

theorem ident_no_dot {C : Classes} (hd : C.word '.' = false) {s : List Char} (h : IsIdent C s) :
    '.' ∉ s := by
  obtain ⟨a, t, rfl, h1, _, h3⟩ := h
  intro hm
  rcases List.mem_cons.1 hm with rfl | hm
  · rw [hd] at h1; simp at h1
  · have := h3 _ hm; rw [hd] at this; simp at this

theorem joinDots_snoc (cs : List (List Char)) (c : List Char) (h : cs ≠ []) :
    joinDots (cs ++ [c]) = joinDots cs ++ '.' :: c := by
  induction cs with
  | nil => exact absurd rfl h
  | cons d cs ih =>
    cases cs with
    | nil => simp [joinDots]
    | cons e cs =>
      rw [List.cons_append, joinDots_cons _ _ (by simp), ih (by simp), joinDots_cons d _ (by simp)]
      simp

/-- **C41** `split_last` of a path with one component is `None`; of a longer one it is the path of
all components but the last, and the last. -/
theorem C41_split_last (C : Classes) (hd : C.word '.' = false) (cs : List (List Char))
    (n : List Char) (h : IsPath C cs n) :
    (cs.length = 1 → IdentList.splitLast n = none) ∧
    (∀ ds last, cs = ds ++ [last] → ds ≠ [] →
      ∃ p, IdentList.splitLast n = some (p, last) ∧ IsPath C ds p ∧ n = p ++ '.' :: last) := by
  obtain ⟨hne, hcs, rfl⟩ := h
  constructor
  · intro hl
    match cs, hl with
    | [c], _ => exact (rsplit_none c).2 (ident_no_dot hd (hcs c (by simp)))
  · rintro ds last rfl hds
    refine ⟨joinDots ds, ?_, ⟨hds, fun c hc => hcs c (by simp [hc]), rfl⟩, joinDots_snoc ds last hds⟩
    rw [joinDots_snoc ds last hds]
    exact rsplit_append _ _ (ident_no_dot hd (hcs last (by simp)))

/-- **C41** A path determines its components. -/
theorem C41_components_unique (C : Classes) (hd : C.word '.' = false) (cs ds : List (List Char))
    (n : List Char) (h1 : IsPath C cs n) (h2 : IsPath C ds n) : cs = ds := by
  induction hk : cs.length generalizing cs ds n with
  | zero =>
    have := h1.1; rw [List.length_eq_zero_iff] at hk; exact absurd hk this
  | succ k ih =>
    have s1 := C41_split_last C hd cs n h1
    have s2 := C41_split_last C hd ds n h2
    rcases List.eq_nil_or_concat cs with h | ⟨cs', c, rfl⟩
    · exact absurd h h1.1
    rcases List.eq_nil_or_concat ds with h | ⟨ds', d, rfl⟩
    · exact absurd h h2.1
    simp only [List.concat_eq_append] at *
    by_cases hc : cs' = []
    · subst hc
      by_cases hdd : ds' = []
      · subst hdd
        have e1 := h1.2.2; have e2 := h2.2.2
        simp only [List.nil_append, joinDots] at e1 e2 ⊢
        rw [← e1, ← e2]
      · obtain ⟨p, hp, _⟩ := s2.2 ds' d rfl hdd
        rw [s1.1 (by simp)] at hp; simp at hp
    · obtain ⟨p, hp, hp2, _⟩ := s1.2 cs' c rfl hc
      by_cases hdd : ds' = []
      · subst hdd
        rw [s2.1 (by simp)] at hp; simp at hp
      · obtain ⟨q, hq, hq2, _⟩ := s2.2 ds' d rfl hdd
        rw [hp] at hq
        simp only [Option.some.injEq, Prod.mk.injEq] at hq
        obtain ⟨rfl, rfl⟩ := hq
        rw [ih cs' ds' p hp2 hq2 (by simpa using hk)]

/-- ASCII classes. -/
def asciiClasses : Classes := ⟨fun c => c.isAlphanum || c == '_', Char.isDigit⟩

example : asciiClasses.word '.' = false := by decide
example : IdentList.new asciiClasses "foo.b4r._z".toList = some "foo.b4r._z".toList := by decide
example : IdentList.new asciiClasses "foo.4bar".toList = none := by decide
example : IdentList.new asciiClasses "foo.".toList = none := by decide
example : IdentList.splitLast "foo.bar.baz".toList = some ("foo.bar".toList, "baz".toList) := by
  decide
example : ∃ cs, IsPath asciiClasses cs "foo.bar".toList :=
  ((C41_new_iff asciiClasses _ _).1 (by decide : IdentList.new asciiClasses "foo.bar".toList =
    some "foo.bar".toList)).2

end Verif.Ident
