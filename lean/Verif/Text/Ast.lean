import Verif.Text.Grammar

/-!
# Model of terms: building them from parse trees, and printing them

Sources: `/repo/hugr-model/src/v0/ast/{mod,parse,print}.rs`, `/repo/hugr-model/src/v0/mod.rs`
(literals). The base64 engine is that of the `base64` crate (`BASE64_STANDARD`, RFC 4648 with
mandatory padding and canonical trailing bits); the layout is chosen by the `pretty` crate.
-/
namespace Verif.Text

/-- A byte. -/
abbrev Byte := Fin 256

/-- `Literal`, hugr-model/src/v0/mod.rs:558-567. A floating point number is represented by the text
Rust prints for it (`{:?}`); printing and reading numbers is Rust's. -/
inductive Literal where
  | str (s : List Char)
  | nat (n : Nat)
  | bytes (bs : List Byte)
  | float (text : List Char)
deriving DecidableEq

mutual
/-- `Term`, ast/mod.rs, without functions (`Term::Func`), for which see `C34_func_unparsable`. -/
inductive Term where
  | wildcard
  | var (name : List Char)
  | apply (name : List Char) (args : Terms)
  | list (parts : Parts)
  | literal (l : Literal)
  | tuple (parts : Parts)

/-- A list of terms. -/
inductive Terms where
  | nil
  | cons (t : Term) (ts : Terms)

/-- A list of `SeqPart`s: items and splices. -/
inductive Parts where
  | nil
  | item (t : Term) (ps : Parts)
  | splice (t : Term) (ps : Parts)
end

deriving instance DecidableEq for Term, Terms, Parts

/-! ## Base64 -/

/-- The alphabet of RFC 4648. -/
def b64Char (v : Nat) : Char :=
  if v < 26 then Char.ofNat (65 + v)
  else if v < 52 then Char.ofNat (97 + (v - 26))
  else if v < 62 then Char.ofNat (48 + (v - 52))
  else if v = 62 then '+' else '/'

/-- The value of a character of the alphabet. -/
def b64Val (c : Char) : Option Nat :=
  if 'A' ≤ c ∧ c ≤ 'Z' then some (c.toNat - 65)
  else if 'a' ≤ c ∧ c ≤ 'z' then some (c.toNat - 97 + 26)
  else if '0' ≤ c ∧ c ≤ '9' then some (c.toNat - 48 + 52)
  else if c = '+' then some 62
  else if c = '/' then some 63
  else none

/-- `Engine::encode_string`: three bytes become four characters; the rest is padded. -/
def b64Encode : List Byte → List Char
  | [] => []
  | [a] => [b64Char (a.val / 4), b64Char (a.val % 4 * 16), '=', '=']
  | [a, b] =>
    [b64Char (a.val / 4), b64Char (a.val % 4 * 16 + b.val / 16), b64Char (b.val % 16 * 4), '=']
  | a :: b :: c :: rest =>
    b64Char (a.val / 4) :: b64Char (a.val % 4 * 16 + b.val / 16) ::
      b64Char (b.val % 16 * 4 + c.val / 64) :: b64Char (c.val % 64) :: b64Encode rest

/-- `Engine::decode`: four characters at a time; padding only in the last four, and the bits that do
not belong to a byte must be zero. -/
def b64Decode : List Char → Option (List Byte)
  | [] => some []
  | [a, b, '=', '='] =>
    match b64Val a, b64Val b with
    | some x, some y => if y % 16 = 0 then some [Fin.ofNat 256 (x * 4 + y / 16)] else none
    | _, _ => none
  | [a, b, c, '='] =>
    match b64Val a, b64Val b, b64Val c with
    | some x, some y, some z =>
      if z % 4 = 0 then some [Fin.ofNat 256 (x * 4 + y / 16), Fin.ofNat 256 (y % 16 * 16 + z / 4)]
      else none
    | _, _, _ => none
  | a :: b :: c :: d :: rest =>
    match b64Val a, b64Val b, b64Val c, b64Val d, b64Decode rest with
    | some x, some y, some z, some w, some bs =>
      some (Fin.ofNat 256 (x * 4 + y / 16) :: Fin.ofNat 256 (y % 16 * 16 + z / 4) ::
        Fin.ofNat 256 (z % 4 * 64 + w) :: bs)
    | _, _, _, _, _ => none
  | _ => none

/-! ## From parse trees to terms -/

/-- The outcome of building a term. -/
inductive Res (α : Type) where
  | ok (a : α)
  | error
  | panic
deriving DecidableEq

def Res.bind {α β : Type} : Res α → (α → Res β) → Res β
  | .ok a, f => f a
  | .error, _ => .error
  | .panic, _ => .panic

/-- The value of a digit in base 16 or below. -/
def digitVal (c : Char) : Nat :=
  if isDigit c then c.toNat - 48
  else if 'a' ≤ c ∧ c ≤ 'f' then c.toNat - 87
  else c.toNat - 55

/-- The number with the given digits. -/
def fromDigits (base : Nat) (ds : List Char) : Nat := ds.foldl (fun n c => n * base + digitVal c) 0

/-- One part of a string, parse.rs:350-376. -/
def segText : Seg → Res (List Char)
  | .raw text => .ok text
  | .escape c =>
    if c = '"' then .ok ['"']
    else if c = '\\' then .ok ['\\']
    else if c = 'n' then .ok ['\n']
    else if c = 'r' then .ok ['\r']
    else if c = 't' then .ok ['\t']
    else .panic
  | .unicode hex =>
    let code := fromDigits 16 hex
    if 2 ^ 32 ≤ code then .error
    else if Nat.isValidChar code then .ok [Char.ofNat code]
    else .error

/-- `parse_string`, parse.rs:340-379. -/
def parseString : List Seg → Res (List Char)
  | [] => .ok []
  | g :: gs => (segText g).bind fun a => (parseString gs).bind fun b => .ok (a ++ b)

/-- `parse_nat`, parse.rs:398-402: the number is unwrapped. -/
def parseNat (text : List Char) : Res Nat :=
  let n := fromDigits 10 text
  if n < 2 ^ 64 then .ok n else .panic

/-- `parse_bytes`, parse.rs:381-396. -/
def parseBytes (text : List Char) : Res (List Byte) :=
  match b64Decode text with
  | some bs => .ok bs
  | none => .error

mutual
/-- `parse_term`, parse.rs:60-94, and `parse_literal`, parse.rs:96-107. For `(fn term)` it calls
`parse_region` on a term, which panics: the first pair of a term is none of the words of
`region_kind`, as those are reserved. -/
def buildTerm : Tree → Res Term
  | .wildcard => .ok .wildcard
  | .var text => .ok (.var text)
  | .list ps => (buildParts ps).bind fun qs => .ok (.list qs)
  | .str segs => (parseString segs).bind fun s => .ok (.literal (.str s))
  | .float text => .ok (.literal (.float text))
  | .nat text => (parseNat text).bind fun n => .ok (.literal (.nat n))
  | .bytes text => (parseBytes text).bind fun bs => .ok (.literal (.bytes bs))
  | .tuple ps => (buildParts ps).bind fun qs => .ok (.tuple qs)
  | .constFunc _ => .panic
  | .apply name ts => (buildTerms ts).bind fun us => .ok (.apply name us)

/-- `pairs.map(parse_term).collect()`. -/
def buildTerms : Trees → Res Terms
  | .nil => .ok .nil
  | .cons t ts => (buildTerm t).bind fun u => (buildTerms ts).bind fun us => .ok (.cons u us)

/-- `pairs.map(parse_seq_part).collect()`, parse.rs:109-122. -/
def buildParts : PartTrees → Res Parts
  | .nil => .ok .nil
  | .item t ps => (buildTerm t).bind fun u => (buildParts ps).bind fun qs => .ok (.item u qs)
  | .splice t ps => (buildTerm t).bind fun u => (buildParts ps).bind fun qs => .ok (.splice u qs)
end

/-- `Term::from_str`, parse.rs:434-467: what is left of the input is ignored; it is returned here to
talk about it. -/
def parseTerm (s : List Char) : Res (Term × List Char) :=
  match parseTermTree s with
  | none => .error
  | some (t, r) => (buildTerm t).bind fun u => .ok (u, r)

/-! ## Printing -/

/-- What the printer builds: texts, and groups of documents between delimiters, separated by
`line()`; print.rs:67-80. -/
inductive Doc where
  | text (s : List Char)
  | group (opening closing : List Char) (docs : List Doc)

/-- `Printer::int`: decimal digits. -/
def natText (n : Nat) : List Char :=
  if n < 10 then [Char.ofNat (48 + n)] else natText (n / 10) ++ [Char.ofNat (48 + n % 10)]

/-- One character in `Printer::string`, print.rs:89-98. -/
def escapeChar (c : Char) : List Char :=
  if c = '\\' then ['\\', '\\']
  else if c = '"' then ['\\', '"']
  else if c = '\n' then ['\\', 'n']
  else if c = '\r' then ['\\', 'r']
  else if c = '\t' then ['\\', 't']
  else [c]

/-- `Printer::string`, print.rs:85-102. -/
def stringText (s : List Char) : List Char := '"' :: s.flatMap escapeChar ++ ['"']

/-- `print_literal`, print.rs:157-176, and `Printer::bytes`, print.rs:106-113. -/
def printLiteral : Literal → Doc
  | .str s => .text (stringText s)
  | .nat n => .text (natText n)
  | .bytes bs => .group ['('] [')'] [.text "bytes".toList, .text ('"' :: b64Encode bs ++ ['"'])]
  | .float t => .text t

mutual
/-- `print_term`, print.rs:116-155. -/
def printTerm : Term → Doc
  | .wildcard => .text ['_']
  | .var x => .text ('?' :: x)
  | .apply x .nil => .text x
  | .apply x (.cons t ts) => .group ['('] [')'] (.text x :: printTerm t :: printTerms ts)
  | .list ps => .group ['['] [']'] (printListParts ps)
  | .literal l => printLiteral l
  | .tuple ps => .group ['('] [')'] (.text "tuple".toList :: printTupleParts ps)

/-- The terms of an application, print.rs:128-130. -/
def printTerms : Terms → List Doc
  | .nil => []
  | .cons t ts => printTerm t :: printTerms ts

/-- `print_list_parts`, print.rs:194-202, and `print_seq_splice`, print.rs:178-183. -/
def printListParts : Parts → List Doc
  | .nil => []
  | .item t ps => printTerm t :: printListParts ps
  | .splice (.list qs) ps => printListParts qs ++ printListParts ps
  | .splice t ps => .group [] [] [printTerm t, .text "...".toList] :: printListParts ps

/-- `print_tuple_parts`, print.rs:205-213. -/
def printTupleParts : Parts → List Doc
  | .nil => []
  | .item t ps => printTerm t :: printTupleParts ps
  | .splice (.tuple qs) ps => printTupleParts qs ++ printTupleParts ps
  | .splice t ps => .group [] [] [printTerm t, .text "...".toList] :: printTupleParts ps
end

end Verif.Text
