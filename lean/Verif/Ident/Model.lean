/-!
# Model of identifier paths

Source: `/repo/hugr-core/src/hugr/ident.rs`. A string is the list of its characters. The Unicode
classes `\w` and `\d` of the `regex` crate are parameters; all that is used of them is that the dot
is not a word character.
-/
namespace Verif.Ident

/-- The part of regular expressions that `PATH_REGEX` uses. -/
inductive Rx where
  | never
  | empty
  | cls (p : Char → Bool)
  | seq (a b : Rx)
  | alt (a b : Rx)
  | star (a : Rx)

/-- Does the expression match the empty string? -/
def Rx.nullable : Rx → Bool
  | never => false
  | empty => true
  | cls _ => false
  | seq a b => a.nullable && b.nullable
  | alt a b => a.nullable || b.nullable
  | star _ => true

/-- What is left to match after the character. -/
def Rx.deriv (c : Char) : Rx → Rx
  | never => never
  | empty => never
  | cls p => if p c then empty else never
  | seq a b => if a.nullable then alt (seq (a.deriv c) b) (b.deriv c) else seq (a.deriv c) b
  | alt a b => alt (a.deriv c) (b.deriv c)
  | star a => seq (a.deriv c) (star a)

/-- `Regex::is_match` for an expression anchored at both ends (`^..$`). -/
def Rx.isMatch : Rx → List Char → Bool
  | r, [] => r.nullable
  | r, c :: cs => (r.deriv c).isMatch cs

/-- The Unicode classes `\w` and `\d`. -/
structure Classes where
  word : Char → Bool
  digit : Char → Bool

/-- `PATH_COMPONENT_REGEX_STR`, ident.rs:8: `[\w--\d]\w*`. -/
def componentRegex (C : Classes) : Rx :=
  .seq (.cls fun c => C.word c && !C.digit c) (.star (.cls C.word))

/-- `PATH_REGEX`, ident.rs:9-14. -/
def pathRegex (C : Classes) : Rx :=
  .seq (componentRegex C) (.star (.seq (.cls fun c => c == '.') (componentRegex C)))

/-- `IdentList::new`, ident.rs:34-42. -/
def IdentList.new (C : Classes) (n : List Char) : Option (List Char) :=
  if (pathRegex C).isMatch n then some n else none

/-- `str::rsplit_once('.')`: what is before and after the last dot. -/
def rsplitDot : List Char → Option (List Char × List Char)
  | [] => none
  | c :: cs =>
    match rsplitDot cs with
    | some (p, s) => some (c :: p, s)
    | none => if c = '.' then some ([], cs) else none

/-- `IdentList::split_last`, ident.rs:59-64. -/
def IdentList.splitLast (n : List Char) : Option (List Char × List Char) := rsplitDot n

end Verif.Ident
