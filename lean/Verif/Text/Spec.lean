import Verif.Text.Ast

/-!
# Specification: layouts, well-formed terms, flattening
-/
namespace Verif.Text

/-! ## Layouts -/

/-- What the pretty printer may put for a `line()`: a space, or a line break and indentation. -/
def Sep (w : List Char) : Prop := w ≠ [] ∧ ∀ c ∈ w, c = ' ' ∨ c = '\n'

mutual
/-- The text is a layout of the document, however the pretty printer breaks lines. -/
inductive Renders : Doc → List Char → Prop
  | text (s : List Char) : Renders (.text s) s
  | group {o c : List Char} {docs : List Doc} {s : List Char} :
    RendersAll docs s → Renders (.group o c docs) (o ++ s ++ c)

/-- The text is a layout of the documents, separated by `line()`. -/
inductive RendersAll : List Doc → List Char → Prop
  | nil : RendersAll [] []
  | one {d : Doc} {s : List Char} : Renders d s → RendersAll [d] s
  | cons {d e : Doc} {ds : List Doc} {s w t : List Char} :
    Renders d s → Sep w → RendersAll (e :: ds) t → RendersAll (d :: e :: ds) (s ++ (w ++ t))
end

/-! ## Names -/

/-- An identifier: a letter, `_` or `-`, then letters, digits, `_` and `-`. -/
def IdentText (x : List Char) : Prop :=
  ∃ c cs, x = c :: cs ∧ isInitial c = true ∧ ∀ d ∈ cs, isRest d = true

/-- Identifiers separated by dots. -/
inductive DottedText : List Char → Prop
  | one {x : List Char} : IdentText x → DottedText x
  | more {x y : List Char} : IdentText x → DottedText y → DottedText (x ++ '.' :: y)

/-- A symbol name that is not a keyword. -/
def SymbolText (x : List Char) : Prop := DottedText x ∧ x ∉ reservedWords

/-- A name that starts with `tuple` without a dot after it. -/
def TupleLike (x : List Char) : Prop := ∃ c y, x = "tuple".toList ++ c :: y ∧ isRest c = true

/-- A name the grammar starts to read as the wildcard: `_` alone or before a dot. -/
def WildLike (x : List Char) : Prop := x = ['_'] ∨ ∃ y, x = '_' :: '.' :: y

/-- A floating point number with a decimal point. -/
def FloatText (t : List Char) : Prop :=
  ∃ sign ds es ex : List Char, t = sign ++ (ds ++ '.' :: (es ++ ex)) ∧
    (sign = [] ∨ sign = ['+'] ∨ sign = ['-']) ∧
    ds ≠ [] ∧ (∀ c ∈ ds, isDigit c = true) ∧ es ≠ [] ∧ (∀ c ∈ es, isDigit c = true) ∧
    (ex = [] ∨ ∃ sg xs, ex = 'e' :: (sg ++ xs) ∧ (sg = [] ∨ sg = ['+'] ∨ sg = ['-']) ∧
      xs ≠ [] ∧ ∀ c ∈ xs, isDigit c = true)

/-- Literals as the format can express them. -/
def Literal.Ok : Literal → Prop
  | .str _ => True
  | .nat n => n < 2 ^ 64
  | .bytes _ => True
  | .float t => FloatText t

mutual
/-- Terms whose names are well formed. The conditions on applications exclude exactly the names the
grammar reads as something else; see the findings in `Verif.Text.Props`. -/
def Term.Ok : Term → Prop
  | .wildcard => True
  | .var x => IdentText x
  | .apply x .nil => SymbolText x ∧ ¬ WildLike x
  | .apply x (.cons t ts) =>
    SymbolText x ∧ ¬ TupleLike x ∧ (x = "fn".toList → ts ≠ .nil) ∧ t.Ok ∧ ts.Ok
  | .list ps => ps.Ok
  | .literal l => l.Ok
  | .tuple ps => ps.Ok

def Terms.Ok : Terms → Prop
  | .nil => True
  | .cons t ts => t.Ok ∧ ts.Ok

def Parts.Ok : Parts → Prop
  | .nil => True
  | .item t ps => t.Ok ∧ ps.Ok
  | .splice t ps => t.Ok ∧ ps.Ok
end

/-! ## Flattening -/

/-- Concatenation. -/
def Parts.append : Parts → Parts → Parts
  | .nil, qs => qs
  | .item t ps, qs => .item t (ps.append qs)
  | .splice t ps, qs => .splice t (ps.append qs)

mutual
/-- The term with lists spliced into lists, and tuples spliced into tuples, merged: `[a [b c]... d]`
is `[a b c d]`. -/
def Term.flat : Term → Term
  | .wildcard => .wildcard
  | .var x => .var x
  | .apply x ts => .apply x ts.flat
  | .list ps => .list ps.flatList
  | .literal l => .literal l
  | .tuple ps => .tuple ps.flatTuple

def Terms.flat : Terms → Terms
  | .nil => .nil
  | .cons t ts => .cons t.flat ts.flat

def Parts.flatList : Parts → Parts
  | .nil => .nil
  | .item t ps => .item t.flat ps.flatList
  | .splice (.list qs) ps => qs.flatList.append ps.flatList
  | .splice t ps => .splice t.flat ps.flatList

def Parts.flatTuple : Parts → Parts
  | .nil => .nil
  | .item t ps => .item t.flat ps.flatTuple
  | .splice (.tuple qs) ps => qs.flatTuple.append ps.flatTuple
  | .splice t ps => .splice t.flat ps.flatTuple
end

/-- What may follow a term so that it ends there: nothing, white space or a closing delimiter. -/
def Ends : List Char → Prop
  | [] => True
  | c :: _ => c = ' ' ∨ c = '\n' ∨ c = ')' ∨ c = ']'

end Verif.Text
