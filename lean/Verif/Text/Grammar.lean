/-!
# Model of the grammar of the text format: terms

Source: `/repo/hugr-model/src/v0/ast/hugr.pest`, compiled by the `pest` crate into a parser
expression grammar: choices are ordered, repetition is greedy, and nothing is tried again once it
succeeded. In a rule that is not atomic, `skip` is run between the parts of a sequence and between
the rounds of a repetition.

A parser takes the rest of the input and returns a parse tree and what is left, or `none` if the
rule does not match. Text is a list of characters.
-/
namespace Verif.Text

/-! ## Characters -/

/-- The rule `WHITESPACE`, hugr.pest:1. -/
def isSpace (c : Char) : Bool := c == ' ' || c == '\t' || c == '\r' || c == '\n'

/-- `ASCII_DIGIT` of pest. -/
def isDigit (c : Char) : Bool := decide ('0' ≤ c) && decide (c ≤ '9')

/-- `ASCII_ALPHA` of pest. -/
def isAlpha (c : Char) : Bool :=
  (decide ('a' ≤ c) && decide (c ≤ 'z')) || (decide ('A' ≤ c) && decide (c ≤ 'Z'))

/-- `ASCII_HEX_DIGIT` of pest. -/
def isHex (c : Char) : Bool :=
  isDigit c || (decide ('a' ≤ c) && decide (c ≤ 'f')) || (decide ('A' ≤ c) && decide (c ≤ 'F'))

/-- `identifier_initial`, hugr.pest:4. -/
def isInitial (c : Char) : Bool := isAlpha c || c == '_' || c == '-'

/-- `identifier_rest`, hugr.pest:5. -/
def isRest (c : Char) : Bool := isAlpha c || isDigit c || c == '_' || c == '-'

/-! ## Tokens -/

/-- Ordered choice. -/
def alt {α : Type} : Option α → Option α → Option α
  | some a, _ => some a
  | none, b => b

/-- A literal string of the grammar. -/
def lit : List Char → List Char → Option (List Char)
  | [], s => some s
  | _ :: _, [] => none
  | c :: cs, d :: s => if c = d then lit cs s else none

/-- A comment without its `;`, hugr.pest:2: up to and including the end of the line; `none` if the
input ends first. -/
def commentBody : List Char → Option (List Char)
  | [] => none
  | c :: s => if c = '\n' then some s else commentBody s

/-- Whitespace and comments between tokens, as generated by pest: `WHITESPACE* ~ (COMMENT ~
WHITESPACE*)*`. Each round of `fuel` consumes a character. -/
def skipN : Nat → List Char → List Char
  | 0, s => s
  | _, [] => []
  | fuel + 1, c :: s =>
    if isSpace c then skipN fuel s
    else if c = ';' then
      match commentBody s with
      | none => c :: s
      | some r => skipN fuel r
    else c :: s

/-- Whitespace and comments between tokens. -/
def skip (s : List Char) : List Char := skipN s.length s

/-- What was consumed of `s` if `r` is left: `Pair::as_str`. -/
def consumed (s r : List Char) : List Char := s.take (s.length - r.length)

/-- `identifier`, hugr.pest:3. -/
def identifier : List Char → Option (List Char × List Char)
  | [] => none
  | c :: s => if isInitial c then some (c :: s.takeWhile isRest, s.dropWhile isRest) else none

/-- The rule `reserved`, hugr.pest:11-33, in order. -/
def reservedWords : List (List Char) :=
  ["mod".toList, "hugr".toList, "bytes".toList, "tuple".toList, "list".toList, "meta".toList,
    "signature".toList, "public".toList, "private".toList, "dfg".toList, "cfg".toList,
    "block".toList, "define-func".toList, "declare-func".toList, "declare-operation".toList,
    "declare-ctr".toList, "declare-alias".toList, "tail-loop".toList, "cond".toList,
    "import".toList, "...".toList]

/-- The rule `reserved`: the first word that matches. -/
def reserved (s : List Char) : Option (List Char) := reservedWords.findSome? fun w => lit w s

/-- `!(identifier_rest | ".")`. -/
def nameEnds : List Char → Bool
  | [] => true
  | c :: _ => !(isRest c || c == '.')

/-- `("." ~ identifier)*`; each round consumes a character, so `fuel` is not used up. -/
def dotted : Nat → List Char → List Char × List Char
  | fuel + 1, '.' :: s =>
    match identifier s with
    | none => ([], '.' :: s)
    | some (x, r) => ('.' :: x ++ (dotted fuel r).1, (dotted fuel r).2)
  | _, s => ([], s)

/-- `symbol_name`, hugr.pest:6. -/
def symbolName (s : List Char) : Option (List Char × List Char) :=
  match reserved s with
  | some r => if nameEnds r then none else body
  | none => body
where
  body : Option (List Char × List Char) :=
    match identifier s with
    | none => none
    | some (x, r) => some (x ++ (dotted r.length r).1, (dotted r.length r).2)

/-! ## Parse trees -/

/-- The parts of `literal_string`, hugr.pest:35-38. -/
inductive Seg where
  | raw (text : List Char)
  | escape (c : Char)
  | unicode (hex : List Char)
deriving DecidableEq, Repr

mutual
/-- The pairs of the rule `term`, with the text needed of each. -/
inductive Tree where
  | wildcard
  | var (text : List Char)
  | list (parts : PartTrees)
  | str (segs : List Seg)
  | float (text : List Char)
  | nat (text : List Char)
  | bytes (text : List Char)
  | tuple (parts : PartTrees)
  | constFunc (t : Tree)
  | apply (name : List Char) (args : Trees)

/-- `term*`. -/
inductive Trees where
  | nil
  | cons (t : Tree) (ts : Trees)

/-- `part*`: each part is a `term` or a `spliced_term`. -/
inductive PartTrees where
  | nil
  | item (t : Tree) (ps : PartTrees)
  | splice (t : Tree) (ps : PartTrees)
end

/-! ## Literals -/

/-- The characters allowed after a backslash, hugr.pest:37. -/
def isEscape (c : Char) : Bool := c == '"' || c == '\\' || c == 'n' || c == 'r' || c == 't'

/-- Neither backslash nor quote, hugr.pest:36. -/
def isRaw (c : Char) : Bool := !(c == '\\' || c == '"')

/-- One part of a string, hugr.pest:35-38. -/
def strSeg : List Char → Option (Seg × List Char)
  | '\\' :: c :: s =>
    if isEscape c then some (.escape c, s)
    else if c = 'u' then
      match s with
      | '{' :: s' =>
        match s'.takeWhile isHex, s'.dropWhile isHex with
        | [], _ => none
        | hex, '}' :: r => some (.unicode hex, r)
        | _, _ => none
      | _ => none
    else none
  | c :: s => if isRaw c then some (.raw (c :: s.takeWhile isRaw), s.dropWhile isRaw) else none
  | [] => none

/-- The repetition in `literal_string`; each round consumes a character. -/
def strSegs : Nat → List Char → List Seg × List Char
  | 0, s => ([], s)
  | fuel + 1, s =>
    match strSeg s with
    | none => ([], s)
    | some (g, r) => (g :: (strSegs fuel r).1, (strSegs fuel r).2)

/-- `literal_string`, hugr.pest:35. -/
def literalString : List Char → Option (Tree × List Char)
  | '"' :: s =>
    match strSegs s.length s with
    | (segs, '"' :: r) => some (.str segs, r)
    | _ => none
  | _ => none

/-- `ASCII_DIGIT+`. -/
def digits (s : List Char) : Option (List Char × List Char) :=
  match s.takeWhile isDigit with
  | [] => none
  | ds => some (ds, s.dropWhile isDigit)

/-- `("+" | "-")?`. -/
def optSign : List Char → List Char
  | c :: s => if c = '+' ∨ c = '-' then s else c :: s
  | [] => []

/-- `("e" ~ ("+" | "-")? ~ ASCII_DIGIT+)?`. -/
def optExponent : List Char → List Char
  | 'e' :: s =>
    match digits (optSign s) with
    | none => 'e' :: s
    | some (_, r) => r
  | s => s

/-- `literal_float`, hugr.pest:42. -/
def literalFloat (s : List Char) : Option (Tree × List Char) :=
  match digits (optSign s) with
  | none => none
  | some (_, r1) =>
    match r1 with
    | '.' :: r2 =>
      match digits r2 with
      | none => none
      | some (_, r3) => some (.float (consumed s (optExponent r3)), optExponent r3)
    | _ => none

/-- `literal_nat`, hugr.pest:40. -/
def literalNat (s : List Char) : Option (Tree × List Char) :=
  match digits s with
  | none => none
  | some (ds, r) => some (.nat ds, r)

/-- `ASCII_ALPHANUMERIC | "+" | "/"`, hugr.pest:44. -/
def isBase64 (c : Char) : Bool := isAlpha c || isDigit c || c == '+' || c == '/'

/-- A repetition of one character class in a rule that is not atomic, after its first round. -/
def moreChars (p : Char → Bool) : Nat → List Char → List Char
  | 0, s => s
  | fuel + 1, s =>
    match skip s with
    | c :: r => if p c then moreChars p fuel r else s
    | [] => s

/-- A repetition of one character class in a rule that is not atomic. -/
def manyChars (p : Char → Bool) : List Char → List Char
  | c :: s => if p c then moreChars p s.length s else c :: s
  | [] => []

/-- `base64_string`, hugr.pest:44, returning what is between the quotes. -/
def base64String : List Char → Option (List Char × List Char)
  | '"' :: s =>
    let r := skip (manyChars (· == '=') (skip (manyChars isBase64 (skip s))))
    match r with
    | '"' :: r' => some (consumed s r, r')
    | _ => none
  | _ => none

/-- `literal_bytes`, hugr.pest:41. -/
def literalBytes (s : List Char) : Option (Tree × List Char) :=
  match lit "(".toList s with
  | none => none
  | some r1 =>
    match lit "bytes".toList (skip r1) with
    | none => none
    | some r2 =>
      match base64String (skip r2) with
      | none => none
      | some (text, r3) =>
        match lit ")".toList (skip r3) with
        | none => none
        | some r4 => some (.bytes text, r4)

/-- `literal`, hugr.pest:9. -/
def literal (s : List Char) : Option (Tree × List Char) :=
  alt (literalString s) (alt (literalFloat s) (alt (literalNat s) (literalBytes s)))

/-! ## Terms -/

/-- `term_wildcard`, hugr.pest:105. -/
def termWildcard : List Char → Option (Tree × List Char)
  | '_' :: s =>
    match s with
    | c :: _ => if isRest c then none else some (.wildcard, s)
    | [] => some (.wildcard, s)
  | _ => none

/-- `term_var`, hugr.pest:106. The text is what follows the question mark. -/
def termVar : List Char → Option (Tree × List Char)
  | '?' :: s =>
    match identifier (skip s) with
    | none => none
    | some (_, r) => some (.var (consumed s r), r)
  | _ => none

mutual
/-- `term`, hugr.pest:95-103. Each level of `fuel` pays for one rule; every nested rule is tried on a
shorter input, see `parseTerm`. -/
def term : Nat → List Char → Option (Tree × List Char)
  | 0, _ => none
  | f + 1, s =>
    alt (termWildcard s) (alt (termVar s) (alt (termList f s) (alt (literal s) (alt (termTuple f s)
      (alt (termConstFunc f s) (termApply f s))))))

/-- `term_list`, hugr.pest:108. -/
def termList : Nat → List Char → Option (Tree × List Char)
  | 0, _ => none
  | f + 1, s =>
    match lit "[".toList s with
    | none => none
    | some r1 =>
      match parts f (skip r1) with
      | (ps, r2) =>
        match lit "]".toList (skip r2) with
        | none => none
        | some r3 => some (.list ps, r3)

/-- `term_tuple`, hugr.pest:109. -/
def termTuple : Nat → List Char → Option (Tree × List Char)
  | 0, _ => none
  | f + 1, s =>
    match lit "(".toList s with
    | none => none
    | some r1 =>
      match lit "tuple".toList (skip r1) with
      | none => none
      | some r2 =>
        match parts f (skip r2) with
        | (ps, r3) =>
          match lit ")".toList (skip r3) with
          | none => none
          | some r4 => some (.tuple ps, r4)

/-- `term_const_func`, hugr.pest:110. -/
def termConstFunc : Nat → List Char → Option (Tree × List Char)
  | 0, _ => none
  | f + 1, s =>
    match lit "(".toList s with
    | none => none
    | some r1 =>
      match lit "fn".toList (skip r1) with
      | none => none
      | some r2 =>
        match term f (skip r2) with
        | none => none
        | some (t, r3) =>
          match lit ")".toList (skip r3) with
          | none => none
          | some r4 => some (.constFunc t, r4)

/-- `term_apply`, hugr.pest:107. -/
def termApply : Nat → List Char → Option (Tree × List Char)
  | 0, _ => none
  | f + 1, s =>
    match symbolName s with
    | some (x, r) => some (.apply x .nil, r)
    | none =>
      match lit "(".toList s with
      | none => none
      | some r1 =>
        match symbolName (skip r1) with
        | none => none
        | some (x, r2) =>
          match terms f (skip r2) with
          | (ts, r3) =>
            match lit ")".toList (skip r3) with
            | none => none
            | some r4 => some (.apply x ts, r4)

/-- `term*`. -/
def terms : Nat → List Char → Trees × List Char
  | 0, s => (.nil, s)
  | f + 1, s =>
    match term f s with
    | none => (.nil, s)
    | some (t, r) => (.cons t (moreTerms f r).1, (moreTerms f r).2)

/-- The further rounds of `term*`. -/
def moreTerms : Nat → List Char → Trees × List Char
  | 0, s => (.nil, s)
  | f + 1, s =>
    match term f (skip s) with
    | none => (.nil, s)
    | some (t, r) => (.cons t (moreTerms f r).1, (moreTerms f r).2)

/-- `part*`. -/
def parts : Nat → List Char → PartTrees × List Char
  | 0, s => (.nil, s)
  | f + 1, s =>
    match part f s with
    | none => (.nil, s)
    | some (false, t, r) => (.item t (moreParts f r).1, (moreParts f r).2)
    | some (true, t, r) => (.splice t (moreParts f r).1, (moreParts f r).2)

/-- The further rounds of `part*`. -/
def moreParts : Nat → List Char → PartTrees × List Char
  | 0, s => (.nil, s)
  | f + 1, s =>
    match part f (skip s) with
    | none => (.nil, s)
    | some (false, t, r) => (.item t (moreParts f r).1, (moreParts f r).2)
    | some (true, t, r) => (.splice t (moreParts f r).1, (moreParts f r).2)

/-- `part`, hugr.pest:112, and `spliced_term`, hugr.pest:113: if the three dots do not follow, the
term is parsed again. The first component tells whether it is spliced. -/
def part : Nat → List Char → Option (Bool × Tree × List Char)
  | 0, _ => none
  | f + 1, s =>
    alt
      (match term f s with
      | none => none
      | some (t, r) =>
        match lit "...".toList (skip r) with
        | none => none
        | some r' => some (true, t, r'))
      (match term f s with
      | none => none
      | some (t, r) => some (false, t, r))
end

/-- `HugrParser::parse(Rule::term, s)`: the whole input need not be used. Between two nested rules
for terms at least one character is consumed, and at most four rules are entered. -/
def parseTermTree (s : List Char) : Option (Tree × List Char) := term (4 * s.length + 4) s

end Verif.Text
