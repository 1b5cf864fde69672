import Verif.Text.ModuleSpec
import Verif.Text.Round

/-!
# Lemmas: reading printed sequences of documents
-/
namespace Verif.Text

/-! ## Layouts -/

theorem rendersAll_mk {d : Doc} {ds : List Doc} {s lead t : List Char} (h1 : Renders d s)
    (h2 : RendersAll ds t) (hl : ds = [] ∧ lead = [] ∧ t = [] ∨ Sep lead ∧ ds ≠ []) :
    RendersAll (d :: ds) (s ++ (lead ++ t)) := by
  rcases hl with ⟨rfl, rfl, rfl⟩ | ⟨hw, hne⟩
  · simpa using RendersAll.one h1
  · cases ds with
    | nil => exact absurd rfl hne
    | cons e ds => exact .cons h1 hw h2

theorem rendersAll_append {ds es : List Doc} {s w t : List Char} (h1 : RendersAll ds s)
    (h2 : RendersAll es t) (hd : ds ≠ []) (he : es ≠ []) (hw : Sep w) :
    RendersAll (ds ++ es) (s ++ (w ++ t)) := by
  induction ds generalizing s with
  | nil => exact absurd rfl hd
  | cons d ds ih =>
    obtain ⟨s1, lead, s2, rfl, hr, hrs, hl⟩ := rendersAll_cons h1
    rcases hl with ⟨rfl, rfl, rfl⟩ | ⟨hw', hne⟩
    · simpa using rendersAll_mk hr h2 (Or.inr ⟨hw, he⟩)
    · have := rendersAll_mk hr (ih hrs hne) (Or.inr ⟨hw', by simp [hne]⟩)
      simpa using this

/-- A group without delimiters does not change the layouts. -/
theorem rendersAll_flatten {as ds es : List Doc} {b : List Char} (hd : ds ≠ [])
    (h : RendersAll (as ++ .group [] [] ds :: es) b) : RendersAll (as ++ (ds ++ es)) b := by
  induction as generalizing b with
  | nil =>
    obtain ⟨s1, lead, s2, rfl, hr, hrs, hl⟩ := rendersAll_cons h
    obtain ⟨c, hc, rfl⟩ := renders_group hr
    rcases hl with ⟨rfl, rfl, rfl⟩ | ⟨hw', hne⟩
    · simpa using hc
    · simpa using rendersAll_append hc hrs hd hne hw'
  | cons a as ih =>
    obtain ⟨s1, lead, s2, rfl, hr, hrs, hl⟩ := rendersAll_cons h
    refine rendersAll_mk hr (ih hrs) ?_
    rcases hl with ⟨h, _⟩ | ⟨hw', _⟩
    · simp at h
    · exact Or.inr ⟨hw', by simp [hd]⟩

/-! ## Positions -/

/-- What ends a sequence of documents. -/
def Stop (T : List Char) : Prop := T = [] ∨ (∃ w, T = ')' :: w) ∨ ∃ w, T = ']' :: w

theorem Stop.ends {T : List Char} (h : Stop T) : Ends T := by
  rcases h with rfl | ⟨w, rfl⟩ | ⟨w, rfl⟩ <;> simp [Ends]

theorem Stop.skip {T : List Char} (h : Stop T) : skip T = T := by
  rcases h with rfl | ⟨w, rfl⟩ | ⟨w, rfl⟩
  · rfl
  · exact skip_fix (by decide) (by decide) w
  · exact skip_fix (by decide) (by decide) w

theorem stop_close (w : List Char) : Stop (')' :: w) := Or.inr (Or.inl ⟨w, rfl⟩)

/-- All layouts start with a character of a token. -/
def DocStarts (d : Doc) : Prop := ∀ s, Renders d s → Starts s

theorem docs_start {ds : List Doc} {b T : List Char} (h : RendersAll ds b) (hst : ∀ e ∈ ds, DocStarts e)
    (hT : Stop T) : skip (b ++ T) = b ++ T := by
  cases ds with
  | nil => rw [rendersAll_nil h]; exact hT.skip
  | cons d ds =>
    obtain ⟨s1, lead, s2, rfl, hr, _, _⟩ := rendersAll_cons h
    rw [List.append_assoc]
    exact skip_starts ((hst d (by simp) s1 hr).append _)

/-- Before a document: its layout, and then the position before the others. -/
theorem at_cons {d : Doc} {ds : List Doc} {b T : List Char} (h : RendersAll (d :: ds) b)
    (hst : ∀ e ∈ ds, DocStarts e) (hT : Stop T) :
    ∃ s1 R b2, b ++ T = s1 ++ R ∧ Renders d s1 ∧ Ends R ∧ skip R = b2 ++ T ∧ RendersAll ds b2 ∧
      s1.length + b2.length ≤ b.length ∧ (ds ≠ [] → Blank R) ∧ b2.length ≤ R.length := by
  obtain ⟨s1, lead, s2, rfl, hr, hrs, hl⟩ := rendersAll_cons h
  refine ⟨s1, lead ++ (s2 ++ T), s2, by simp, hr, ?_, ?_, hrs, by simp, ?_, by simp; omega⟩
  · rcases hl with ⟨_, rfl, rfl⟩ | ⟨hw, _⟩
    · exact hT.ends
    · exact Ends.of_sep hw _
  · rcases hl with ⟨_, rfl, rfl⟩ | ⟨hw, hne⟩
    · exact hT.skip
    · cases ds with
      | nil => exact absurd rfl hne
      | cons e ds =>
        obtain ⟨t1, lead2, t2, rfl, hr2, _, _⟩ := rendersAll_cons hrs
        rw [List.append_assoc]
        exact skip_sep_starts hw ((hst e (by simp) t1 hr2).append _)
  · intro hne
    rcases hl with ⟨h, _⟩ | ⟨hw, _⟩
    · exact absurd h hne
    · exact Blank.of_sep hw _

/-! ## Accepted and rejected documents -/

/-- Every layout of the document, up to a length, is read, with a good result. -/
def Accepts {α : Type} (p : Parser α) (Q : α → Prop) (N : Nat) (d : Doc) : Prop :=
  ∀ s R, Renders d s → s.length ≤ N → Ends R → ∃ x, Q x ∧ p (s ++ R) = some (x, R)

/-- No layout of the document is read. -/
def Rejects {α : Type} (p : Parser α) (d : Doc) : Prop :=
  ∀ s R, Renders d s → Ends R → p (s ++ R) = none

/-- The parser needs something to read. -/
def NeedsText {α : Type} (p : Parser α) : Prop := ∀ T, Stop T → p T = none

/-- The parser does not read what comes next. -/
theorem next_none {α : Type} {p : Parser α} {es : List Doc} {b T : List Char} (h : RendersAll es b)
    (hT : Stop T) (hp : NeedsText p) (hrej : ∀ e es', es = e :: es' → Rejects p e)
    (hst : ∀ e ∈ es, DocStarts e) : p (b ++ T) = none := by
  cases es with
  | nil => rw [rendersAll_nil h]; exact hp T hT
  | cons e es =>
    obtain ⟨s1, R, b2, e1, hr, hends, _⟩ := at_cons h (fun e he => hst e (by simp [he])) hT
    rw [e1]
    exact hrej e es rfl s1 R hr hends

/-- Documents and results, one by one. -/
inductive AllAccepts {α β : Type} (p : Parser α) (Q : β → α → Prop) (N : Nat) :
    List Doc → List β → Prop
  | nil : AllAccepts p Q N [] []
  | cons {d : Doc} {ds : List Doc} {y : β} {ys : List β} : Accepts p (Q y) N d → DocStarts d →
    AllAccepts p Q N ds ys → AllAccepts p Q N (d :: ds) (y :: ys)

/-- Results, one by one. -/
inductive AllGood {α β : Type} (Q : β → α → Prop) : List α → List β → Prop
  | nil : AllGood Q [] []
  | cons {x : α} {xs : List α} {y : β} {ys : List β} : Q y x → AllGood Q xs ys →
    AllGood Q (x :: xs) (y :: ys)

theorem AllAccepts.starts {α β : Type} {p : Parser α} {Q : β → α → Prop} {N : Nat} {ds : List Doc}
    {ys : List β} (h : AllAccepts p Q N ds ys) : ∀ d ∈ ds, DocStarts d := by
  induction h with
  | nil => simp
  | cons h1 h2 _ ih =>
    intro d hd
    rcases List.mem_cons.mp hd with rfl | hd
    · exact h2
    · exact ih d hd

theorem rendersAll_length {ds : List Doc} {b : List Char} (h : RendersAll ds b)
    (hst : ∀ d ∈ ds, DocStarts d) : ds.length ≤ b.length := by
  induction ds generalizing b with
  | nil => simp
  | cons d ds ih =>
    obtain ⟨s1, lead, s2, rfl, hr, hrs, _⟩ := rendersAll_cons h
    have h1 := ih hrs (fun d hd => hst d (by simp [hd]))
    have h2 : 0 < s1.length := List.length_pos_iff.mpr (hst d (by simp) s1 hr).ne_nil
    simp only [List.length_append, List.length_cons]
    omega

theorem more_docs {α β : Type} {p : Parser α} {Q : β → α → Prop} {N : Nat} {es : List Doc}
    {T : List Char} (hp : NeedsText p) (hT : Stop T)
    (hrej : ∀ e es', es = e :: es' → Rejects p e) (hst : ∀ e ∈ es, DocStarts e)
    {ds : List Doc} {ys : List β} (hacc : AllAccepts p Q N ds ys) :
    ∀ (f : Nat) (s b : List Char), skip s = b ++ T → RendersAll (ds ++ es) b → b.length ≤ N →
      ds.length ≤ f →
      ∃ xs R b', more p f s = (xs, R) ∧ AllGood Q xs ys ∧ skip R = b' ++ T ∧ RendersAll es b' ∧
        b'.length ≤ b.length := by
  induction hacc with
  | nil =>
    intro f s b hs hb _ _
    refine ⟨[], s, b, ?_, .nil, hs, hb, Nat.le_refl _⟩
    cases f with
    | zero => rw [more]
    | succ f => rw [more, hs, next_none hb hT hp hrej hst]
  | cons h1 h2 h3 ih =>
    rename_i d ds y ys
    intro f s b hs hb hN hf
    obtain ⟨f, rfl⟩ : ∃ g, f = g + 1 := ⟨f - 1, by simp at hf; omega⟩
    have hst' : ∀ e ∈ ds ++ es, DocStarts e := by
      intro e he
      rcases List.mem_append.mp he with he | he
      · exact h3.starts e he
      · exact hst e he
    obtain ⟨s1, R, b2, e1, hr, hends, hsk, hb2, hlen, _⟩ := at_cons hb hst' hT
    obtain ⟨x, hx, hread⟩ := h1 s1 R hr (by omega) hends
    obtain ⟨xs, R', b', hm, hg, hsk', hb', hl⟩ := ih f R b2 hsk hb2 (by omega) (by simpa using hf)
    refine ⟨x :: xs, R', b', ?_, .cons hx hg, hsk', hb', by omega⟩
    rw [more, hs, e1, hread]
    simp only [hm]

/-- A repetition reads all the documents and stops before the others. -/
theorem many_docs {α β : Type} {p : Parser α} {Q : β → α → Prop} {N : Nat} {es : List Doc}
    {T b : List Char} (hp : NeedsText p) (hT : Stop T)
    (hrej : ∀ e es', es = e :: es' → Rejects p e) (hst : ∀ e ∈ es, DocStarts e)
    {ds : List Doc} {ys : List β} (hacc : AllAccepts p Q N ds ys) (hb : RendersAll (ds ++ es) b)
    (hN : b.length ≤ N) :
    ∃ xs R b', many p (b ++ T) = (xs, R) ∧ AllGood Q xs ys ∧ skip R = b' ++ T ∧ RendersAll es b' ∧
      b'.length ≤ b.length := by
  cases hacc with
  | nil =>
    refine ⟨[], b ++ T, b, ?_, .nil, docs_start hb hst hT, hb, Nat.le_refl _⟩
    rw [many, next_none hb hT hp hrej hst]
  | cons h1 h2 h3 =>
    rename_i d ds y ys
    have hst' : ∀ e ∈ ds ++ es, DocStarts e := by
      intro e he
      rcases List.mem_append.mp he with he | he
      · exact h3.starts e he
      · exact hst e he
    obtain ⟨s1, R, b2, e1, hr, hends, hsk, hb2, hlen, _, hlR⟩ := at_cons hb hst' hT
    obtain ⟨x, hx, hread⟩ := h1 s1 R hr (by omega) hends
    have hcount := rendersAll_length hb2 hst'
    have hf : ds.length ≤ R.length := by
      have h5 : ds.length ≤ (ds ++ es).length := by simp
      have h6 : (ds ++ es).length ≤ b2.length := hcount
      omega
    obtain ⟨xs, R', b', hm, hg, hsk', hb', hl⟩ :=
      more_docs hp hT hrej hst h3 R.length R b2 hsk hb2 (by omega) hf
    refine ⟨x :: xs, R', b', ?_, .cons hx hg, hsk', hb', by omega⟩
    rw [many, e1, hread]
    simp only [hm]

/-! ## Single documents -/

theorem text_starts {x : List Char} (h : Starts x) : DocStarts (.text x) := by
  intro s hs; rw [renders_text hs]; exact h

theorem group_starts {c : Char} {cl : List Char} {ds : List Doc}
    (h : isSpace c = false ∧ c ≠ ';' ∧ c ≠ ')' ∧ c ≠ ']' ∧ c ≠ '.') :
    DocStarts (.group [c] cl ds) := by
  intro s hs
  obtain ⟨b, _, rfl⟩ := renders_group hs
  exact starts_lit h

theorem paren_starts (ds : List Doc) : DocStarts (.group ['('] [')'] ds) := group_starts (by decide)
theorem bracket_starts (ds : List Doc) : DocStarts (.group ['['] [']'] ds) := group_starts (by decide)

theorem renders_paren {ds : List Doc} {s R : List Char} (h : Renders (.group ['('] [')'] ds) s) :
    ∃ b, RendersAll ds b ∧ s ++ R = '(' :: (b ++ ')' :: R) ∧ s.length = b.length + 2 := by
  obtain ⟨b, hb, rfl⟩ := renders_group h
  exact ⟨b, hb, by simp, by simp⟩

theorem renders_bracket {ds : List Doc} {s R : List Char} (h : Renders (.group ['['] [']'] ds) s) :
    ∃ b, RendersAll ds b ∧ s ++ R = '[' :: (b ++ ']' :: R) ∧ s.length = b.length + 2 := by
  obtain ⟨b, hb, rfl⟩ := renders_group h
  exact ⟨b, hb, by simp, by simp⟩

theorem term_starts {t : Term} (h : t.Ok) : DocStarts (printTerm t) := by
  intro s hs
  rw [← print_flat] at hs
  exact (reads_term t.flat (flat_ok t h) (flat_isFlat t) s hs).1

theorem term_accepts {t : Term} (h : t.Ok) (N : Nat) :
    Accepts parseTermTree (fun tr => buildTerm tr = .ok t.flat) N (printTerm t) := by
  intro s R hs _ hR
  rw [← print_flat] at hs
  obtain ⟨_, tr, hb, hr⟩ := reads_term t.flat (flat_ok t h) (flat_isFlat t) s hs
  exact ⟨tr, hb, hr _ R hR (by simp; omega)⟩

theorem term_needs : NeedsText parseTermTree := by
  rintro T (rfl | ⟨w, rfl⟩ | ⟨w, rfl⟩)
  · decide +kernel
  · exact term_close (Or.inl rfl) _ w
  · exact term_close (Or.inr (Or.inl rfl)) _ w

theorem lit_open (s : List Char) : lit "(".toList ('(' :: s) = some s := lit_append ['('] s

theorem lit_paren_ne {c : Char} (h : c ≠ '(') (s : List Char) : lit "(".toList (c :: s) = none :=
  lit_cons_ne [] s h

/-! ## Wrapped terms -/

theorem wrapped_ne {c : Char} (h : c ≠ '(') (k s : List Char) : wrapped k (c :: s) = none := by
  simp only [wrapped, lit_paren_ne h]

theorem wrapped_needs (k : List Char) : NeedsText (wrapped k) := by
  rintro T (rfl | ⟨w, rfl⟩ | ⟨w, rfl⟩)
  · rfl
  · exact wrapped_ne (by decide) k w
  · exact wrapped_ne (by decide) k w

theorem wrapped_other {k s : List Char} (h : lit k (skip s) = none) : wrapped k ('(' :: s) = none := by
  simp only [wrapped, lit_open, h]

theorem wrapped_accepts {k : List Char} (hk : Starts k) {t : Term} (ht : t.Ok) (N : Nat) :
    Accepts (wrapped k) (fun tr => buildTerm tr = .ok t.flat) N (printWrapped k t) := by
  intro s R hs _ _
  have hst : ∀ e ∈ [printTerm t], DocStarts e := by
    intro e he; rw [List.mem_singleton.mp he]; exact term_starts ht
  obtain ⟨b, hb, e0, _⟩ := renders_paren (R := R) hs
  have hsk := docs_start hb (by
    intro e he
    rcases List.mem_cons.mp he with rfl | he
    · exact text_starts hk
    · exact hst e he) (stop_close R)
  obtain ⟨s1, R1, b1, e1, hr1, _, hsk1, hb1, _⟩ := at_cons hb hst (stop_close R)
  obtain ⟨s2, R2, b2, e2, hr2, hR2, hsk2, hb2, _⟩ := at_cons hb1 (by simp) (stop_close R)
  obtain ⟨tr, htr, hread⟩ := term_accepts ht s2.length s2 R2 hr2 (Nat.le_refl _) hR2
  refine ⟨tr, htr, ?_⟩
  rw [rendersAll_nil hb2] at hsk2
  rw [renders_text hr1] at e1
  rw [e1] at hsk
  simp only [wrapped, e0, lit_open, hsk, e1, lit_append, hsk1, e2, hread, hsk2, List.nil_append,
    lit_close]

/-- A parenthesised group that starts with a word. -/
theorem paren_word {k : List Char} {ds : List Doc} {s R : List Char} (hk : Starts k)
    (hst : ∀ e ∈ ds, DocStarts e) (hs : Renders (.group ['('] [')'] (.text k :: ds)) s) :
    ∃ R1 b1, s ++ R = '(' :: (k ++ R1) ∧ skip (k ++ R1) = k ++ R1 ∧ Ends R1 ∧
      skip R1 = b1 ++ ')' :: R ∧ RendersAll ds b1 ∧ b1.length + 2 ≤ s.length ∧
      (ds ≠ [] → Blank R1) := by
  obtain ⟨b, hb, e0, hlen⟩ := renders_paren (R := R) hs
  obtain ⟨s1, R1, b1, e1, hr1, hR1, hsk1, hb1, hl, hbl, _⟩ := at_cons hb hst (stop_close R)
  rw [renders_text hr1] at e1 hl
  refine ⟨R1, b1, by rw [e0, e1], skip_starts (hk.append _), hR1, hsk1, hb1, by omega, hbl⟩

theorem wrapped_rejects {k k' : List Char} {ds : List Doc} (hk : Starts k')
    (hst : ∀ e ∈ ds, DocStarts e) (h : ∀ r, lit k (k' ++ r) = none) :
    Rejects (wrapped k) (.group ['('] [')'] (.text k' :: ds)) := by
  intro s R hs _
  obtain ⟨R1, b1, e0, hsk, _⟩ := paren_word (R := R) hk hst hs
  rw [e0]
  exact wrapped_other (by rw [hsk]; exact h R1)

/-! ## Ports -/

/-- The two lists of ports, without the group around them. -/
def portDocs (ins outs : List (List Char)) : List Doc :=
  if ins = [] ∧ outs = [] then []
  else [.group ['['] [']'] (ins.map fun x => .text ('%' :: x)),
    .group ['['] [']'] (outs.map fun x => .text ('%' :: x))]

theorem flatten_ports {as es : List Doc} {ins outs : List (List Char)} {b : List Char}
    (h : RendersAll (as ++ (printPorts ins outs ++ es)) b) :
    RendersAll (as ++ (portDocs ins outs ++ es)) b := by
  unfold printPorts at h
  unfold portDocs
  split at h
  · next e => rw [if_pos e]; exact h
  · next e =>
    rw [if_neg e]
    exact rendersAll_flatten (by simp) h

theorem link_accepts {x : List Char} (hx : LinkText x) (N : Nat) :
    Accepts linkName (fun y => y = x) N (.text ('%' :: x)) := by
  intro s R hs _ hR
  rw [renders_text hs]
  refine ⟨x, rfl, ?_⟩
  simp only [List.cons_append, linkName, takeWhile_stop hx hR.rest, dropWhile_stop hx hR.rest]

theorem link_starts (x : List Char) : DocStarts (.text ('%' :: x)) :=
  text_starts (starts_lit (by decide))

theorem link_needs : NeedsText linkName := by
  rintro T (rfl | ⟨w, rfl⟩ | ⟨w, rfl⟩) <;> rfl

theorem links_accepts (N : Nat) {xs : List (List Char)} (h : ∀ x ∈ xs, LinkText x) :
    AllAccepts linkName (fun x y => y = x) N (xs.map fun x => .text ('%' :: x)) xs := by
  induction xs with
  | nil => exact .nil
  | cons x xs ih =>
    exact .cons (link_accepts (h x (by simp)) N) (link_starts x) (ih fun y hy => h y (by simp [hy]))

theorem allGood_eq {α : Type} {xs ys : List α} (h : AllGood (fun x y => y = x) xs ys) : xs = ys := by
  induction h with
  | nil => rfl
  | cons h _ ih => rw [h, ih]

theorem portList_text {xs : List (List Char)} (hx : ∀ x ∈ xs, LinkText x) {s R : List Char}
    (hs : Renders (.group ['['] [']'] (xs.map fun x => .text ('%' :: x))) s) :
    portList (s ++ R) = some (xs, R) := by
  obtain ⟨b, hb, e, _⟩ := renders_bracket (R := R) hs
  have hT : Stop (']' :: R) := Or.inr (Or.inr ⟨R, rfl⟩)
  have hsk := docs_start hb (links_accepts b.length hx).starts hT
  have hb' : RendersAll ((xs.map fun x => Doc.text ('%' :: x)) ++ []) b := by simpa using hb
  obtain ⟨ys, R', b', hm, hg, hsk', hb2, _⟩ := many_docs (es := []) link_needs hT (by simp) (by simp)
    (links_accepts b.length hx) hb' (Nat.le_refl _)
  rw [rendersAll_nil hb2, List.nil_append] at hsk'
  rw [allGood_eq hg] at hm
  have h1 : lit "[".toList ('[' :: (b ++ ']' :: R)) = some (b ++ ']' :: R) := lit_append ['['] _
  have h2 : lit "]".toList (']' :: R) = some R := lit_append [']'] _
  simp only [portList, e, h1, hsk, hm, hsk', h2]

theorem portLists_ne {c : Char} (h : c ≠ '[') (s : List Char) : portLists (c :: s) = none := by
  have h1 : lit "[".toList (c :: s) = none := lit_cons_ne [] s h
  simp only [portLists, portList, h1]

theorem portLists_needs : NeedsText portLists := by
  rintro T (rfl | ⟨w, rfl⟩ | ⟨w, rfl⟩)
  · rfl
  · exact portLists_ne (by decide) w
  · exact portLists_ne (by decide) w

/-- A document between parentheses. -/
def IsParen (d : Doc) : Prop := ∃ ds, d = .group ['('] [')'] ds

theorem IsParen.starts {d : Doc} (h : IsParen d) : DocStarts d := by
  obtain ⟨ds, rfl⟩ := h; exact paren_starts ds

theorem portLists_rejects {d : Doc} (h : IsParen d) : Rejects portLists d := by
  obtain ⟨ds, rfl⟩ := h
  intro s R hs _
  obtain ⟨b, _, e, _⟩ := renders_paren (R := R) hs
  rw [e]
  exact portLists_ne (by decide) _

theorem optional_none {α : Type} {p : Parser α} {s : List Char} (h : p s = none) :
    optional p s = (none, s) := by simp only [optional, h]

theorem optional_some {α : Type} {p : Parser α} {s r : List Char} {x : α} (h : p s = some (x, r)) :
    optional p s = (some x, r) := by simp only [optional, h]

theorem portDocs_starts (ins outs : List (List Char)) : ∀ d ∈ portDocs ins outs, DocStarts d := by
  intro d hd
  unfold portDocs at hd
  split at hd
  · simp at hd
  · simp only [List.mem_cons, List.not_mem_nil, or_false] at hd
    rcases hd with rfl | rfl <;> exact bracket_starts _

/-- Optional ports before other documents in parentheses. -/
theorem ports_text {ins outs : List (List Char)} {es : List Doc} {b T : List Char}
    (hi : ∀ x ∈ ins, LinkText x) (ho : ∀ x ∈ outs, LinkText x) (hes : ∀ e ∈ es, IsParen e)
    (hT : Stop T) (hb : RendersAll (portDocs ins outs ++ es) b) :
    ∃ p R b', optional portLists (b ++ T) = (p, R) ∧ portsOf p = (ins, outs) ∧ skip R = b' ++ T ∧
      RendersAll es b' ∧ b'.length ≤ b.length := by
  have hst : ∀ e ∈ es, DocStarts e := fun e he => (hes e he).starts
  unfold portDocs at hb
  split at hb
  · next e =>
    obtain ⟨rfl, rfl⟩ := e
    have hb : RendersAll es b := hb
    refine ⟨none, b ++ T, b, ?_, rfl, docs_start hb hst hT, hb, Nat.le_refl _⟩
    exact optional_none (next_none hb hT portLists_needs
      (fun e es' h => portLists_rejects (hes e (by rw [h]; simp))) hst)
  · obtain ⟨s1, R1, b1, e1, hr1, hR1, hsk1, hb1, hl1, _⟩ := at_cons hb (by
      intro e he
      rcases List.mem_cons.mp he with rfl | he
      · exact bracket_starts _
      · exact hst e he) hT
    obtain ⟨s2, R2, b2, e2, hr2, hR2, hsk2, hb2, hl2, _⟩ := at_cons hb1 hst hT
    refine ⟨some (ins, outs), R2, b2, ?_, rfl, hsk2, hb2, by omega⟩
    refine optional_some ?_
    simp only [portLists, e1, portList_text hi hr1, hsk1, e2, portList_text ho hr2]

/-! ## Signatures and metadata -/

theorem word_starts {k : List Char} (h : k ∈ ["signature".toList, "meta".toList, "where".toList]) :
    Starts k := by
  simp only [List.mem_cons, List.not_mem_nil, or_false] at h
  rcases h with rfl | rfl | rfl <;> exact starts_lit (by decide)

theorem wrapped_paren (k : List Char) (t : Term) : IsParen (printWrapped k t) := ⟨_, rfl⟩

theorem metas_accepts {k : List Char} (hk : Starts k) (N : Nat) {ts : List Term} (h : ∀ t ∈ ts, t.Ok) :
    AllAccepts (wrapped k) (fun t tr => buildTerm tr = .ok t) N (ts.map (printWrapped k))
      (ts.map Term.flat) := by
  induction ts with
  | nil => exact .nil
  | cons t ts ih =>
    exact .cons (wrapped_accepts hk (h t (by simp)) N) (wrapped_paren k t).starts
      (ih fun u hu => h u (by simp [hu]))

theorem buildAll_good {α β : Type} {f : α → Res β} {xs : List α} {ys : List β}
    (h : AllGood (fun y x => f x = .ok y) xs ys) : buildAll f xs = .ok ys := by
  induction h with
  | nil => rfl
  | cons h _ ih => simp only [buildAll, h, ih, Res.bind]

theorem signature_text {sig : Option Term} {es : List Doc} {b T : List Char}
    (hs : ∀ t, sig = some t → t.Ok) (hst : ∀ e ∈ es, DocStarts e)
    (hrej : ∀ e ∈ es, Rejects (wrapped "signature".toList) e) (hT : Stop T)
    (hb : RendersAll (printOption sig ++ es) b) :
    ∃ o R b', optional (wrapped "signature".toList) (b ++ T) = (o, R) ∧
      buildOption o = .ok (sig.map Term.flat) ∧ skip R = b' ++ T ∧ RendersAll es b' ∧
      b'.length ≤ b.length := by
  cases sig with
  | none =>
    have hb : RendersAll es b := hb
    refine ⟨none, b ++ T, b, ?_, rfl, docs_start hb hst hT, hb, Nat.le_refl _⟩
    exact optional_none (next_none hb hT (wrapped_needs _)
      (fun e es' h => hrej e (by rw [h]; simp)) hst)
  | some t =>
    obtain ⟨s1, R1, b1, e1, hr1, hR1, hsk1, hb1, hl1, _⟩ := at_cons hb hst hT
    obtain ⟨tr, htr, hread⟩ := wrapped_accepts (k := "signature".toList) (word_starts (by simp))
      (hs t rfl) s1.length s1 R1 hr1 (Nat.le_refl _) hR1
    refine ⟨some tr, R1, b1, ?_, ?_, hsk1, hb1, by omega⟩
    · rw [e1]; exact optional_some hread
    · simp only [buildOption, htr, Res.bind]; rfl

theorem option_starts (sig : Option Term) : ∀ e ∈ printOption sig, IsParen e := by
  cases sig with
  | none => simp [printOption]
  | some t =>
    intro e he
    rw [List.mem_singleton.mp he]
    exact wrapped_paren _ t

theorem metas_paren {k : List Char} (ts : List Term) : ∀ e ∈ ts.map (printWrapped k), IsParen e := by
  intro e he
  obtain ⟨t, _, rfl⟩ := List.mem_map.mp he
  exact wrapped_paren k t

/-- What may follow ports: signature, metadata and items. -/
def tailDocs (ins outs : List (List Char)) (sig : Option Term) (metas : List Term) (items : List Doc) :
    List Doc :=
  portDocs ins outs ++ (printOption sig ++ (metas.map (printWrapped "meta".toList) ++ items))

theorem meta_rejects_signature (ts : List Term) (h : ∀ t ∈ ts, t.Ok) :
    ∀ e ∈ ts.map (printWrapped "meta".toList), Rejects (wrapped "signature".toList) e := by
  intro e he
  obtain ⟨t, ht, rfl⟩ := List.mem_map.mp he
  refine wrapped_rejects (word_starts (by simp)) ?_ (fun r => rfl)
  intro e he
  rw [List.mem_singleton.mp he]
  exact term_starts (h t ht)

theorem tail_text {α β : Type} {item : Parser α} {Q : β → α → Prop} {ins outs : List (List Char)}
    {sig : Option Term} {metas : List Term} {items : List Doc} {ys : List β} {b w : List Char} {N : Nat}
    (hi : ∀ x ∈ ins, LinkText x) (ho : ∀ x ∈ outs, LinkText x) (hs : ∀ t, sig = some t → t.Ok)
    (hm : ∀ t ∈ metas, t.Ok) (hitem : NeedsText item) (hacc : AllAccepts item Q N items ys)
    (hparen : ∀ e ∈ items, IsParen e)
    (hrs : ∀ e ∈ items, Rejects (wrapped "signature".toList) e)
    (hrm : ∀ e ∈ items, Rejects (wrapped "meta".toList) e)
    (hb : RendersAll (tailDocs ins outs sig metas items) b) (hN : b.length ≤ N) :
    ∃ p o ms xs, tail item (b ++ ')' :: w) = some ((p, o, ms, xs), w) ∧ portsOf p = (ins, outs) ∧
      buildOption o = .ok (sig.map Term.flat) ∧ buildAll buildTerm ms = .ok (metas.map Term.flat) ∧
      AllGood Q xs ys := by
  have hT := stop_close w
  have hstm : ∀ e ∈ metas.map (printWrapped "meta".toList) ++ items, IsParen e := by
    intro e he
    rcases List.mem_append.mp he with he | he
    · exact metas_paren metas e he
    · exact hparen e he
  have hsto : ∀ e ∈ printOption sig ++ (metas.map (printWrapped "meta".toList) ++ items), IsParen e := by
    intro e he
    rcases List.mem_append.mp he with he | he
    · exact option_starts sig e he
    · exact hstm e he
  obtain ⟨p, R1, b1, h1, hp, hsk1, hb1, hl1⟩ := ports_text hi ho hsto hT hb
  obtain ⟨o, R2, b2, h2, hbo, hsk2, hb2, hl2⟩ := signature_text hs (fun e he => (hstm e he).starts) (by
    intro e he
    rcases List.mem_append.mp he with he | he
    · exact meta_rejects_signature metas hm e he
    · exact hrs e he) hT hb1
  obtain ⟨ms, R3, b3, h3, hg3, hsk3, hb3, hl3⟩ := many_docs (wrapped_needs "meta".toList) hT
    (fun e es' h => hrm e (by rw [h]; simp)) (fun e he => (hparen e he).starts)
    (metas_accepts (word_starts (by simp)) b2.length hm) hb2 (Nat.le_refl _)
  have hb3' : RendersAll (items ++ []) b3 := by simpa using hb3
  obtain ⟨xs, R4, b4, h4, hg4, hsk4, hb4, _⟩ := many_docs (es := []) hitem hT (by simp) (by simp) hacc
    hb3' (by omega)
  rw [rendersAll_nil hb4, List.nil_append] at hsk4
  refine ⟨p, o, ms, xs, ?_, hp, hbo, buildAll_good hg3, hg4⟩
  simp only [tail, h1, hsk1, h2, hsk2, h3, hsk3, h4, hsk4, lit_close]

end Verif.Text
