import Verif.Text.Lemmas

/-!
# Lemmas: literals
-/
namespace Verif.Text

theorem consumed_append (x r : List Char) : consumed (x ++ r) r = x := by
  simp [consumed]

/-! ## Strings -/

/-- Characters printed as themselves. -/
def isPlain (c : Char) : Bool :=
  !(c == '\\' || c == '"' || c == '\n' || c == '\r' || c == '\t')

theorem escape_plain {c : Char} (h : isPlain c = true) : escapeChar c = [c] := by
  simp only [isPlain, Bool.not_eq_true', Bool.or_eq_false_iff, beq_eq_false_iff_ne, ne_eq] at h
  simp [escapeChar, h]

theorem escape_not_plain {c : Char} (h : isPlain c = false) :
    ∃ e, escapeChar c = ['\\', e] ∧ isEscape e = true ∧ segText (.escape e) = .ok [c] := by
  have : c = '\\' ∨ c = '"' ∨ c = '\n' ∨ c = '\r' ∨ c = '\t' := by
    simp only [isPlain, Bool.not_eq_false', Bool.or_eq_true, beq_iff_eq] at h
    tauto
  rcases this with rfl | rfl | rfl | rfl | rfl
  · exact ⟨'\\', by decide, by decide, by decide⟩
  · exact ⟨'"', by decide, by decide, by decide⟩
  · exact ⟨'n', by decide, by decide, by decide⟩
  · exact ⟨'r', by decide, by decide, by decide⟩
  · exact ⟨'t', by decide, by decide, by decide⟩

theorem plain_raw {c : Char} (h : isPlain c = true) : isRaw c = true := by
  simp only [isPlain, Bool.not_eq_true', Bool.or_eq_false_iff, beq_eq_false_iff_ne, ne_eq] at h
  simp [isRaw, h]

theorem raw_run (s w : List Char) :
    (s.flatMap escapeChar ++ '"' :: w).takeWhile isRaw = s.takeWhile isPlain ∧
    (s.flatMap escapeChar ++ '"' :: w).dropWhile isRaw =
      (s.dropWhile isPlain).flatMap escapeChar ++ '"' :: w := by
  induction s with
  | nil => simp [show isRaw '"' = false by decide]
  | cons c s ih =>
    cases h : isPlain c with
    | true =>
      simp only [List.flatMap_cons, escape_plain h, List.cons_append, List.nil_append,
        List.takeWhile_cons, List.dropWhile_cons, plain_raw h, h, if_true]
      exact ⟨by rw [ih.1], ih.2⟩
    | false =>
      obtain ⟨e, he, _⟩ := escape_not_plain h
      simp [he, h, show isRaw '\\' = false by decide]

theorem strSegs_text (n : Nat) : ∀ s : List Char, s.length ≤ n →
    ∃ segs, parseString segs = .ok s ∧ ∀ (w : List Char) (f : Nat),
      (s.flatMap escapeChar).length ≤ f →
      strSegs f (s.flatMap escapeChar ++ '"' :: w) = (segs, '"' :: w) := by
  have hnil : ∀ (w : List Char) (f : Nat), strSegs f ('"' :: w) = ([], '"' :: w) := by
    intro w f
    cases f <;> simp [strSegs, strSeg, show isRaw '"' = false by decide]
  induction n with
  | zero =>
    intro s hs
    have : s = [] := by cases s <;> simp_all
    subst this
    exact ⟨[], rfl, fun w f _ => hnil w f⟩
  | succ n ih =>
    intro s hs
    cases s with
    | nil => exact ⟨[], rfl, fun w f _ => hnil w f⟩
    | cons c s =>
      cases h : isPlain c with
      | true =>
        have hsplit : s.takeWhile isPlain ++ s.dropWhile isPlain = s := List.takeWhile_append_dropWhile
        have hlen : (s.dropWhile isPlain).length ≤ n := by
          have := congrArg List.length hsplit
          rw [List.length_append] at this
          simp only [List.length_cons] at hs
          omega
        obtain ⟨segs, hp, hs'⟩ := ih (s.dropWhile isPlain) hlen
        refine ⟨.raw (c :: s.takeWhile isPlain) :: segs, ?_, ?_⟩
        · simp only [parseString, segText, Res.bind, hp, List.cons_append, hsplit]
        · intro w f hf
          cases f with
          | zero => simp [escape_plain h] at hf
          | succ f =>
            have hlen2 : ((s.dropWhile isPlain).flatMap escapeChar).length ≤ f := by
              have := congrArg (fun l => (List.flatMap escapeChar l).length) hsplit
              simp only [List.flatMap_append, List.length_append] at this
              simp only [List.flatMap_cons, escape_plain h, List.length_append, List.length_cons,
                List.length_nil] at hf
              omega
            have hraw := plain_raw h
            have hseg : strSeg ((c :: s).flatMap escapeChar ++ '"' :: w) =
                some (.raw (c :: s.takeWhile isPlain),
                  (s.dropWhile isPlain).flatMap escapeChar ++ '"' :: w) := by
              simp only [List.flatMap_cons, escape_plain h, List.cons_append, List.nil_append]
              have hne : c ≠ '\\' := by rintro rfl; exact absurd h (by decide)
              unfold strSeg
              split
              · next e => exact absurd (List.cons.inj e).1 hne
              · next e =>
                obtain ⟨rfl, rfl⟩ := List.cons.inj e
                simp only [hraw, if_true, (raw_run s w).1, (raw_run s w).2]
              · next e => cases e
            simp only [strSegs, hseg, hs' w f hlen2]
      | false =>
        obtain ⟨e, he, hesc, htext⟩ := escape_not_plain h
        obtain ⟨segs, hp, hs'⟩ := ih s (by simpa using hs)
        refine ⟨.escape e :: segs, ?_, ?_⟩
        · simp only [parseString, htext, Res.bind, hp, List.cons_append, List.nil_append]
        · intro w f hf
          cases f with
          | zero => simp [he] at hf
          | succ f =>
            have hlen2 : (s.flatMap escapeChar).length ≤ f := by
              simp only [List.flatMap_cons, he, List.length_append, List.length_cons,
                List.length_nil] at hf
              omega
            simp only [List.flatMap_cons, he, List.cons_append, List.nil_append, strSegs, strSeg,
              hesc, if_true, hs' w f hlen2]

theorem literalString_text (s : List Char) : ∃ segs, parseString segs = .ok s ∧
    ∀ w, literalString (stringText s ++ w) = some (.str segs, w) := by
  obtain ⟨segs, hp, hs⟩ := strSegs_text s.length s (Nat.le_refl _)
  refine ⟨segs, hp, fun w => ?_⟩
  have := hs w (s.flatMap escapeChar ++ '"' :: w).length (by simp)
  simp only [stringText, List.cons_append, List.append_assoc, List.nil_append, literalString, this]

/-! ## Numbers -/

theorem digit_ofNat : ∀ d : Fin 10, isDigit (Char.ofNat (48 + d.val)) = true ∧
    digitVal (Char.ofNat (48 + d.val)) = d.val := by decide

theorem natText_digits (n : Nat) : natText n ≠ [] ∧ ∀ c ∈ natText n, isDigit c = true := by
  induction n using natText.induct with
  | case1 n h =>
    rw [natText, if_pos h]
    refine ⟨by simp, fun c hc => ?_⟩
    rw [List.mem_singleton.mp hc]
    exact (digit_ofNat ⟨n, h⟩).1
  | case2 n h ih =>
    rw [natText, if_neg h]
    refine ⟨by simp, fun c hc => ?_⟩
    rcases List.mem_append.mp hc with hc | hc
    · exact ih.2 c hc
    · rw [List.mem_singleton.mp hc]
      exact (digit_ofNat ⟨n % 10, Nat.mod_lt _ (by decide)⟩).1

theorem fromDigits_natText (n : Nat) : fromDigits 10 (natText n) = n := by
  induction n using natText.induct with
  | case1 n h =>
    rw [natText, if_pos h]
    simpa [fromDigits] using (digit_ofNat ⟨n, h⟩).2
  | case2 n h ih =>
    rw [natText, if_neg h]
    have hd := (digit_ofNat ⟨n % 10, Nat.mod_lt _ (by decide)⟩).2
    simp only [fromDigits, List.foldl_append, List.foldl_cons, List.foldl_nil] at ih ⊢
    rw [ih, hd]
    simp only []
    omega

theorem digits_text {ds w : List Char} (h0 : ds ≠ []) (h : ∀ c ∈ ds, isDigit c = true)
    (hw : ∀ c w', w = c :: w' → isDigit c = false) : digits (ds ++ w) = some (ds, w) := by
  unfold digits
  rw [takeWhile_stop h hw, dropWhile_stop h hw]
  cases ds with
  | nil => exact absurd rfl h0
  | cons d ds => rfl

theorem digits_none {c : Char} (h : isDigit c = false) (s : List Char) : digits (c :: s) = none := by
  simp [digits, h]

theorem optSign_digit {c : Char} (h : isDigit c = true) (s : List Char) :
    optSign (c :: s) = c :: s := by
  have h1 : c ≠ '+' := ne_of_digit h (by decide)
  have h2 : c ≠ '-' := ne_of_digit h (by decide)
  simp [optSign, h1, h2]

theorem optSign_text {sg ds w : List Char} (hs : sg = [] ∨ sg = ['+'] ∨ sg = ['-']) (h0 : ds ≠ [])
    (h : ∀ c ∈ ds, isDigit c = true) : optSign (sg ++ (ds ++ w)) = ds ++ w := by
  rcases hs with rfl | rfl | rfl
  · cases ds with
    | nil => exact absurd rfl h0
    | cons d ds => exact optSign_digit (h d (by simp)) _
  · simp [optSign]
  · simp [optSign]

theorem literalNat_text {ds w : List Char} (h0 : ds ≠ []) (h : ∀ c ∈ ds, isDigit c = true)
    (hw : ∀ c w', w = c :: w' → isDigit c = false) : literalNat (ds ++ w) = some (.nat ds, w) := by
  simp [literalNat, digits_text h0 h hw]

theorem literalFloat_nat {ds w : List Char} (h0 : ds ≠ []) (h : ∀ c ∈ ds, isDigit c = true)
    (hw : ∀ c w', w = c :: w' → isDigit c = false ∧ c ≠ '.') : literalFloat (ds ++ w) = none := by
  have hs := optSign_text (sg := []) (w := w) (Or.inl rfl) h0 h
  simp only [List.nil_append] at hs
  simp only [literalFloat, hs, digits_text h0 h (fun c w' e => (hw c w' e).1)]
  split
  · next e => exact absurd rfl (hw _ _ rfl).2
  · rfl

theorem literalFloat_text {t : List Char} (ht : FloatText t) {w : List Char} (hw : Ends w) :
    literalFloat (t ++ w) = some (.float t, w) := by
  obtain ⟨sign, ds, es, ex, rfl, hsign, hd0, hd, he0, he, hex⟩ := ht
  have hwr : ∀ c w', w = c :: w' → isDigit c = false ∧ c ≠ 'e' := by
    rintro c w' rfl
    rcases hw with rfl | rfl | rfl | rfl <;> decide
  have h1 : sign ++ (ds ++ '.' :: (es ++ ex)) ++ w = sign ++ (ds ++ ('.' :: (es ++ (ex ++ w)))) := by
    simp
  have h2 : digits (ds ++ ('.' :: (es ++ (ex ++ w)))) = some (ds, '.' :: (es ++ (ex ++ w))) := by
    refine digits_text hd0 hd ?_
    rintro c w' e
    simp only [List.cons.injEq] at e
    rw [← e.1]; decide
  have h3 : digits (es ++ (ex ++ w)) = some (es, ex ++ w) := by
    refine digits_text he0 he ?_
    rintro c w' e
    rcases hex with rfl | ⟨sg, xs, rfl, _⟩
    · exact (hwr c w' e).1
    · simp only [List.cons_append, List.cons.injEq] at e
      rw [← e.1]; decide
  have h4 : optExponent (ex ++ w) = w := by
    rcases hex with rfl | ⟨sg, xs, rfl, hsg, hx0, hx⟩
    · unfold optExponent
      split
      · next e => exact absurd rfl (hwr _ _ e).2
      · rfl
    · have h5 := optSign_text (w := w) hsg hx0 hx
      have h6 := digits_text (w := w) hx0 hx (fun c w' e => (hwr c w' e).1)
      simp only [List.cons_append, List.append_assoc, optExponent, h5, h6]
  unfold literalFloat
  rw [h1, optSign_text hsign hd0 hd, h2]
  simp only [h3, h4]
  rw [← h1, consumed_append]

/-! ## Bytes -/

theorem b64_table : ∀ v : Fin 64, b64Val (b64Char v.val) = some v.val ∧
    isBase64 (b64Char v.val) = true ∧ b64Char v.val ≠ '=' := by decide +kernel

theorem b64Val_char {v : Nat} (h : v < 64) : b64Val (b64Char v) = some v := (b64_table ⟨v, h⟩).1
theorem b64_is {v : Nat} (h : v < 64) : isBase64 (b64Char v) = true := (b64_table ⟨v, h⟩).2.1
theorem b64_ne {v : Nat} (h : v < 64) : b64Char v ≠ '=' := (b64_table ⟨v, h⟩).2.2

theorem byte_eq (a : Byte) {n : Nat} (h : n = a.val) : Fin.ofNat 256 n = a := by
  apply Fin.ext
  simp [h, Nat.mod_eq_of_lt a.isLt]

theorem b64_round (bs : List Byte) : b64Decode (b64Encode bs) = some bs := by
  induction bs using b64Encode.induct with
  | case1 => rfl
  | case2 a =>
    have ha := a.isLt
    simp only [b64Encode, b64Decode, b64Val_char (v := a.val / 4) (by omega),
      b64Val_char (v := a.val % 4 * 16) (by omega), Nat.mul_mod_left, if_true]
    rw [byte_eq a (by omega)]
  | case3 a b =>
    have ha := a.isLt
    have hb := b.isLt
    have hne := b64_ne (v := b.val % 16 * 4) (by omega)
    rw [b64Encode, b64Decode]
    · simp only [b64Val_char (v := a.val / 4) (by omega),
        b64Val_char (v := a.val % 4 * 16 + b.val / 16) (by omega),
        b64Val_char (v := b.val % 16 * 4) (by omega), Nat.mul_mod_left, if_true]
      rw [byte_eq a (by omega), byte_eq b (by omega)]
    · exact hne
  | case4 a b c rest ih =>
    have ha := a.isLt
    have hb := b.isLt
    have hc := c.isLt
    have hne := b64_ne (v := c.val % 64) (by omega)
    rw [b64Encode, b64Decode]
    · simp only [b64Val_char (v := a.val / 4) (by omega),
        b64Val_char (v := a.val % 4 * 16 + b.val / 16) (by omega),
        b64Val_char (v := b.val % 16 * 4 + c.val / 64) (by omega),
        b64Val_char (v := c.val % 64) (by omega), ih]
      rw [byte_eq a (by omega), byte_eq b (by omega), byte_eq c (by omega)]
    · intro _ h; exact absurd h hne
    · intro h; exact absurd h hne

theorem b64_shape (bs : List Byte) : ∃ body pad, b64Encode bs = body ++ pad ∧
    (∀ c ∈ body, isBase64 c = true) ∧ (∀ c ∈ pad, c = '=') := by
  induction bs using b64Encode.induct with
  | case1 => exact ⟨[], [], rfl, by simp, by simp⟩
  | case2 a =>
    have ha := a.isLt
    refine ⟨[b64Char (a.val / 4), b64Char (a.val % 4 * 16)], ['=', '='], rfl, ?_, by simp⟩
    simp [b64_is (v := a.val / 4) (by omega), b64_is (v := a.val % 4 * 16) (by omega)]
  | case3 a b =>
    have ha := a.isLt
    have hb := b.isLt
    refine ⟨[b64Char (a.val / 4), b64Char (a.val % 4 * 16 + b.val / 16), b64Char (b.val % 16 * 4)],
      ['='], rfl, ?_, by simp⟩
    simp [b64_is (v := a.val / 4) (by omega), b64_is (v := a.val % 4 * 16 + b.val / 16) (by omega),
      b64_is (v := b.val % 16 * 4) (by omega)]
  | case4 a b c rest ih =>
    have ha := a.isLt
    have hb := b.isLt
    have hc := c.isLt
    obtain ⟨body, pad, he, hb', hp⟩ := ih
    refine ⟨b64Char (a.val / 4) :: b64Char (a.val % 4 * 16 + b.val / 16) ::
      b64Char (b.val % 16 * 4 + c.val / 64) :: b64Char (c.val % 64) :: body, pad, ?_, ?_, hp⟩
    · simp [b64Encode, he]
    · simpa [b64_is (v := a.val / 4) (by omega),
        b64_is (v := a.val % 4 * 16 + b.val / 16) (by omega),
        b64_is (v := b.val % 16 * 4 + c.val / 64) (by omega),
        b64_is (v := c.val % 64) (by omega)] using hb'

/-- Characters that are neither white space nor the start of a comment. -/
def Solid (c : Char) : Prop := isSpace c = false ∧ c ≠ ';'

theorem moreChars_text {p : Char → Bool} (hp : ∀ c, p c = true → Solid c) {c : Char} {r : List Char}
    (hc : Solid c) (hpc : p c = false) : ∀ (x : List Char) (f : Nat), (∀ d ∈ x, p d = true) →
      x.length ≤ f → moreChars p f (x ++ c :: r) = c :: r := by
  intro x
  induction x with
  | nil =>
    intro f _ _
    cases f with
    | zero => rfl
    | succ f => simp [moreChars, skip_fix hc.1 hc.2, hpc]
  | cons d x ih =>
    intro f hx hf
    cases f with
    | zero => simp at hf
    | succ f =>
      have hd := hx d (by simp)
      have := hp d hd
      simp only [List.cons_append, moreChars, skip_fix this.1 this.2, hd, if_true]
      exact ih f (fun e he => hx e (by simp [he])) (by simpa using hf)

theorem manyChars_text {p : Char → Bool} (hp : ∀ c, p c = true → Solid c) {c : Char} {r : List Char}
    (hc : Solid c) (hpc : p c = false) (x : List Char) (hx : ∀ d ∈ x, p d = true) :
    manyChars p (skip (x ++ c :: r)) = c :: r := by
  cases x with
  | nil => simp [skip_fix hc.1 hc.2, manyChars, hpc]
  | cons d x =>
    have hd := hx d (by simp)
    have := hp d hd
    simp only [List.cons_append, skip_fix this.1 this.2, manyChars, hd, if_true]
    exact moreChars_text hp hc hpc x _ (fun e he => hx e (by simp [he])) (by simp)

theorem base64_solid {c : Char} (h : isBase64 c = true) : Solid c := by
  refine ⟨?_, ?_⟩
  · cases hs : isSpace c with
    | false => rfl
    | true => rcases space_cases hs with rfl | rfl | rfl | rfl <;> exact absurd h (by decide)
  · rintro rfl; exact absurd h (by decide)

theorem base64String_text (bs : List Byte) (w : List Char) :
    base64String ('"' :: b64Encode bs ++ ['"'] ++ w) = some (b64Encode bs, w) := by
  obtain ⟨body, pad, he, hb, hp⟩ := b64_shape bs
  have hq : Solid '"' := ⟨by decide, by decide⟩
  have heq : Solid '=' := ⟨by decide, by decide⟩
  have hpad : ∀ d ∈ pad, (d == '=') = true := fun d hd => by simp [hp d hd]
  have hsol : ∀ c : Char, (c == '=') = true → Solid c := by
    intro c hc
    rw [beq_iff_eq.mp hc]; exact heq
  have h1 : manyChars isBase64 (skip (body ++ (pad ++ '"' :: w))) = pad ++ '"' :: w := by
    cases pad with
    | nil => exact manyChars_text (fun c h => base64_solid h) hq (by decide) body hb
    | cons d pad =>
      have : d = '=' := hp d (by simp)
      subst this
      exact manyChars_text (fun c h => base64_solid h) heq (by decide) body hb
  have h2 : manyChars (· == '=') (skip (pad ++ '"' :: w)) = '"' :: w :=
    manyChars_text hsol hq (by decide) pad hpad
  have h3 : skip ('"' :: w) = '"' :: w := skip_fix hq.1 hq.2 w
  have h0 : '"' :: b64Encode bs ++ ['"'] ++ w = '"' :: (body ++ (pad ++ '"' :: w)) := by
    simp [he]
  rw [h0]
  simp only [base64String, h1, h2, h3]
  have h4 : body ++ (pad ++ '"' :: w) = b64Encode bs ++ '"' :: w := by simp [he]
  rw [h4, consumed_append]

end Verif.Text
