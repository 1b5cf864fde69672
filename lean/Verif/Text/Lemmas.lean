import Mathlib.Tactic.Common
import Verif.Text.Spec

/-!
# Lemmas: tokens
-/
namespace Verif.Text

@[simp] theorem alt_none {α : Type} (b : Option α) : alt none b = b := rfl
@[simp] theorem alt_some {α : Type} (a : α) (b : Option α) : alt (some a) b = some a := rfl

/-! ## Character classes -/

theorem space_cases {c : Char} (h : isSpace c = true) :
    c = ' ' ∨ c = '\t' ∨ c = '\r' ∨ c = '\n' := by
  simpa [isSpace, or_assoc] using h

/-- Characters of names. -/
def isName (c : Char) : Bool := isRest c || c == '.'

theorem initial_rest {c : Char} (h : isInitial c = true) : isRest c = true := by
  simp only [isInitial, isRest, Bool.or_eq_true] at *
  tauto

theorem rest_name {c : Char} (h : isRest c = true) : isName c = true := by simp [isName, h]

theorem digit_rest {c : Char} (h : isDigit c = true) : isRest c = true := by
  simp [isRest, h]

theorem name_not_space {c : Char} (h : isName c = true) : isSpace c = false := by
  cases hs : isSpace c with
  | false => rfl
  | true => rcases space_cases hs with rfl | rfl | rfl | rfl <;> exact absurd h (by decide)

theorem ne_of_name {c d : Char} (h : isName c = true) (hd : isName d = false) : c ≠ d := by
  rintro rfl; rw [h] at hd; cases hd

theorem ne_of_rest {c d : Char} (h : isRest c = true) (hd : isRest d = false) : c ≠ d := by
  rintro rfl; rw [h] at hd; cases hd

theorem ne_of_digit {c d : Char} (h : isDigit c = true) (hd : isDigit d = false) : c ≠ d := by
  rintro rfl; rw [h] at hd; cases hd

theorem ne_of_initial {c d : Char} (h : isInitial c = true) (hd : isInitial d = false) : c ≠ d := by
  rintro rfl; rw [h] at hd; cases hd

theorem digit_not_initial {c : Char} (h : isDigit c = true) : isInitial c = false := by
  cases hi : isInitial c with
  | false => rfl
  | true =>
    simp only [isInitial, isDigit, isAlpha, Bool.or_eq_true, Bool.and_eq_true, decide_eq_true_eq,
      beq_iff_eq, Char.le_def, UInt32.le_iff_toNat_le] at h hi
    rcases hi with (hi | rfl) | rfl
    · have e1 : ('0' : Char).val.toNat = 48 := rfl
      have e2 : ('9' : Char).val.toNat = 57 := rfl
      have e3 : ('a' : Char).val.toNat = 97 := rfl
      have e4 : ('z' : Char).val.toNat = 122 := rfl
      have e5 : ('A' : Char).val.toNat = 65 := rfl
      have e6 : ('Z' : Char).val.toNat = 90 := rfl
      omega
    · exact absurd h (by decide)
    · exact absurd h (by decide)

/-- Characters a printed term may start with. -/
def Starts (s : List Char) : Prop :=
  ∃ c cs, s = c :: cs ∧ isSpace c = false ∧ c ≠ ';' ∧ c ≠ ')' ∧ c ≠ ']' ∧ c ≠ '.'

theorem Starts.append {s : List Char} (h : Starts s) (w : List Char) : Starts (s ++ w) := by
  obtain ⟨c, cs, rfl, h⟩ := h
  exact ⟨c, cs ++ w, rfl, h⟩

theorem Starts.ne_nil {s : List Char} (h : Starts s) : s ≠ [] := by
  obtain ⟨c, cs, rfl, _⟩ := h; simp

theorem Ends.of_sep {w : List Char} (h : Sep w) (r : List Char) : Ends (w ++ r) := by
  obtain ⟨h0, h1⟩ := h
  cases w with
  | nil => exact absurd rfl h0
  | cons c w => rcases h1 c (by simp) with rfl | rfl <;> simp [Ends]

theorem Ends.head_not_rest {c : Char} {r : List Char} (h : Ends (c :: r)) : isName c = false := by
  rcases h with rfl | rfl | rfl | rfl <;> decide

/-! ## Skipping -/

theorem skipN_fix {c : Char} (h : isSpace c = false) (h2 : c ≠ ';') (f : Nat) (r : List Char) :
    skipN f (c :: r) = c :: r := by
  cases f <;> simp [skipN, h, h2]

theorem skip_fix {c : Char} (h : isSpace c = false) (h2 : c ≠ ';') (r : List Char) :
    skip (c :: r) = c :: r := skipN_fix h h2 _ r

theorem skip_nil : skip [] = [] := rfl

theorem skipN_sep {c : Char} (h : isSpace c = false) (h2 : c ≠ ';') (r : List Char) :
    ∀ (w : List Char) (f : Nat), (∀ d ∈ w, d = ' ' ∨ d = '\n') → w.length ≤ f →
      skipN f (w ++ c :: r) = c :: r := by
  intro w
  induction w with
  | nil => intro f _ _; exact skipN_fix h h2 f r
  | cons d w ih =>
    intro f hw hf
    cases f with
    | zero => simp at hf
    | succ f =>
      have hd : isSpace d = true := by rcases hw d (by simp) with rfl | rfl <;> decide
      simp only [List.cons_append, skipN, hd, if_true]
      exact ih f (fun e he => hw e (by simp [he])) (by simpa using hf)

theorem skip_sep {w r : List Char} {c : Char} (hw : Sep w) (h : isSpace c = false) (h2 : c ≠ ';') :
    skip (w ++ c :: r) = c :: r := by
  apply skipN_sep h h2 r w _ hw.2
  simp

theorem skip_starts {s : List Char} (h : Starts s) : skip s = s := by
  obtain ⟨c, cs, rfl, h1, h2, _⟩ := h
  exact skip_fix h1 h2 cs

theorem skip_sep_starts {w s : List Char} (hw : Sep w) (h : Starts s) : skip (w ++ s) = s := by
  obtain ⟨c, cs, rfl, h1, h2, _⟩ := h
  exact skip_sep hw h1 h2

/-! ## Keywords -/

theorem lit_append (k s : List Char) : lit k (k ++ s) = some s := by
  induction k with
  | nil => simp [lit]
  | cons c k ih => simpa [lit] using ih

theorem lit_cons_ne {c d : Char} (k s : List Char) (h : d ≠ c) : lit (c :: k) (d :: s) = none := by
  simp [lit, Ne.symm h]

theorem lit_cons_nil (c : Char) (k : List Char) : lit (c :: k) [] = none := rfl

theorem lit_prefix {k s r : List Char} (h : lit k s = some r) : s = k ++ r := by
  induction k generalizing s with
  | nil => simpa [lit] using h
  | cons c k ih =>
    cases s with
    | nil => simp [lit] at h
    | cons d s =>
      simp only [lit] at h
      split at h
      · next e => rw [ih h, e]; rfl
      · cases h

/-- A keyword found in a name followed by something that is not part of the keyword is a prefix of
the name. -/
theorem lit_name {k x w r : List Char} (h : lit k (x ++ w) = some r)
    (hw : ∀ c w', w = c :: w' → c ∉ k) : ∃ y, x = k ++ y ∧ r = y ++ w := by
  have h' := lit_prefix h
  induction k generalizing x with
  | nil => exact ⟨x, rfl, by simpa using h'.symm⟩
  | cons c k ih =>
    cases x with
    | nil =>
      simp only [List.nil_append, List.cons_append] at h'
      exact absurd (by simp) (hw c (k ++ r) h')
    | cons d x =>
      simp only [List.cons_append, List.cons.injEq] at h'
      obtain ⟨rfl, h'⟩ := h'
      have h2 : lit k (x ++ w) = some r := by simpa [lit] using h
      obtain ⟨y, rfl, hr⟩ := ih h2 (fun c w' e hc => hw c w' e (by simp [hc])) h'
      exact ⟨y, rfl, hr⟩

/-! ## Names -/

theorem takeWhile_stop {p : Char → Bool} {x w : List Char} (hx : ∀ c ∈ x, p c = true)
    (hw : ∀ c w', w = c :: w' → p c = false) : (x ++ w).takeWhile p = x := by
  induction x with
  | nil =>
    cases w with
    | nil => rfl
    | cons c w => simp [hw c w rfl]
  | cons c x ih =>
    simp [hx c (by simp), ih (fun d hd => hx d (by simp [hd]))]

theorem dropWhile_stop {p : Char → Bool} {x w : List Char} (hx : ∀ c ∈ x, p c = true)
    (hw : ∀ c w', w = c :: w' → p c = false) : (x ++ w).dropWhile p = w := by
  induction x with
  | nil =>
    cases w with
    | nil => rfl
    | cons c w => simp [hw c w rfl]
  | cons c x ih =>
    simp [hx c (by simp), ih (fun d hd => hx d (by simp [hd]))]

theorem identifier_text {x w : List Char} (hx : IdentText x)
    (hw : ∀ c w', w = c :: w' → isRest c = false) : identifier (x ++ w) = some (x, w) := by
  obtain ⟨c, cs, rfl, hc, hcs⟩ := hx
  simp [identifier, hc, takeWhile_stop hcs hw, dropWhile_stop hcs hw]

theorem dotted_stop {w : List Char} (hw : ∀ c w', w = c :: w' → isName c = false) (f : Nat) :
    dotted f w = ([], w) := by
  cases w with
  | nil => cases f <;> simp [dotted]
  | cons c w =>
    have : c ≠ '.' := by
      rintro rfl; exact absurd (hw _ _ rfl) (by decide)
    cases f with
    | zero => simp [dotted]
    | succ f =>
      unfold dotted
      split
      · next e => exact absurd (List.cons.inj e).1 this
      · rfl

theorem not_rest_of_not_name {c : Char} (h : isName c = false) : isRest c = false := by
  cases hr : isRest c with
  | false => rfl
  | true => rw [rest_name hr] at h; cases h

/-- The part of `symbolName` after the test for keywords. -/
def dottedName (s : List Char) : Option (List Char × List Char) :=
  match identifier s with
  | none => none
  | some (x, r) => some (x ++ (dotted r.length r).1, (dotted r.length r).2)

theorem dotted_text {y w : List Char} (hy : DottedText y)
    (hw : ∀ c w', w = c :: w' → isName c = false) :
    ∃ x z, IdentText x ∧ y = x ++ z ∧ (∀ c z', z ++ w = c :: z' → isRest c = false) ∧
      ∀ f, (z ++ w).length ≤ f → dotted f (z ++ w) = (z, w) := by
  induction hy with
  | one hx =>
    rename_i x
    refine ⟨x, [], hx, by simp, ?_, ?_⟩
    · intro c z' e
      exact not_rest_of_not_name (hw c z' e)
    · intro f _; exact dotted_stop hw f
  | more hx hy ih =>
    rename_i x y
    obtain ⟨x', z', hx', rfl, hz', hd⟩ := ih
    refine ⟨x, '.' :: (x' ++ z'), hx, rfl, ?_, ?_⟩
    · intro c z e
      simp only [List.cons_append, List.cons.injEq] at e
      rw [← e.1]; decide
    · intro f hf
      cases f with
      | zero => simp at hf
      | succ f =>
        have hi : identifier (x' ++ z' ++ w) = some (x', z' ++ w) := by
          rw [List.append_assoc]
          exact identifier_text hx' hz'
        have hf' : (z' ++ w).length ≤ f := by
          simp at hf ⊢; omega
        simp only [List.cons_append, dotted, hi, hd f hf']

theorem dottedName_text {y w : List Char} (hy : DottedText y)
    (hw : ∀ c w', w = c :: w' → isName c = false) : dottedName (y ++ w) = some (y, w) := by
  obtain ⟨x, z, hx, rfl, hz, hd⟩ := dotted_text hy hw
  have hi : identifier (x ++ z ++ w) = some (x, z ++ w) := by
    rw [List.append_assoc]; exact identifier_text hx hz
  simp only [dottedName, hi, hd _ (Nat.le_refl _)]

theorem IdentText.name {x : List Char} (h : IdentText x) : ∀ c ∈ x, isName c = true := by
  obtain ⟨c, cs, rfl, hc, hcs⟩ := h
  intro d hd
  rcases List.mem_cons.mp hd with rfl | hd
  · exact rest_name (initial_rest hc)
  · exact rest_name (hcs d hd)

theorem DottedText.name {x : List Char} (h : DottedText x) : ∀ c ∈ x, isName c = true := by
  induction h with
  | one h => exact h.name
  | more h _ ih =>
    intro c hc
    rcases List.mem_append.mp hc with hc | hc
    · exact h.name c hc
    · rcases List.mem_cons.mp hc with rfl | hc
      · decide
      · exact ih c hc

theorem DottedText.start {x : List Char} (h : DottedText x) :
    ∃ c cs, x = c :: cs ∧ isInitial c = true := by
  cases h with
  | one h => obtain ⟨c, cs, rfl, hc, _⟩ := h; exact ⟨c, cs, rfl, hc⟩
  | more h _ => obtain ⟨c, cs, rfl, hc, _⟩ := h; exact ⟨c, _, rfl, hc⟩

theorem symbolName_eq (s : List Char) : symbolName s =
    match reserved s with
    | some r => if nameEnds r then none else dottedName s
    | none => dottedName s := rfl

theorem nameEnds_name {c : Char} (r : List Char) (h : isName c = true) : nameEnds (c :: r) = false := by
  simp only [isName] at h
  simp only [nameEnds, h, Bool.not_true]

theorem reserved_names : ∀ k ∈ reservedWords, ∀ c ∈ k, isName c = true := by decide

theorem symbolName_text {x w : List Char} (hx : SymbolText x)
    (hw : ∀ c w', w = c :: w' → isName c = false) : symbolName (x ++ w) = some (x, w) := by
  rw [symbolName_eq]
  cases hr : reserved (x ++ w) with
  | none => exact dottedName_text hx.1 hw
  | some r =>
    obtain ⟨k, hk, hl⟩ := List.exists_of_findSome?_eq_some hr
    have hs : ∀ c w', w = c :: w' → c ∉ k := by
      intro c w' e hc
      have := reserved_names k hk c hc
      rw [hw c w' e] at this; cases this
    obtain ⟨y, rfl, rfl⟩ := lit_name hl hs
    cases y with
    | nil => exact absurd (by simpa using hk) hx.2
    | cons c y =>
      have : isName c = true := hx.1.name c (by simp)
      simp only [List.cons_append, nameEnds_name _ this]
      exact dottedName_text hx.1 hw

theorem identifier_none {c : Char} {s : List Char} (h : isInitial c = false) :
    identifier (c :: s) = none := by simp [identifier, h]

theorem symbolName_none {c : Char} {s : List Char} (h : isInitial c = false) :
    symbolName (c :: s) = none := by
  rw [symbolName_eq]
  have : dottedName (c :: s) = none := by simp [dottedName, identifier_none h]
  rw [this]
  split
  · split <;> rfl
  · rfl

end Verif.Text
