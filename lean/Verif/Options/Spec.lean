import Verif.Options.Model
import Mathlib.Data.List.Basic
/-
What an options file says, independently of how it is parsed.
-/
namespace AmpGen.Options
open AmpGen.Strings (Str getlines)

/-- A word that needs no quotes. -/
structure Plain (w : Str) : Prop where
  nonempty : w ≠ []
  blank : ∀ c ∈ w, isBlank c = false
  comment : '#' ∉ w
  quote : '"' ∉ w

/-- Opening minus closing braces. -/
def net (w : Str) : Int := (w.count '{' : Int) - (w.count '}' : Int)

/-- `Line s ts d`: the line `s` consists of the words `ts`, separated by blanks or enclosed in quotes and possibly followed by a comment, and the words not
in quotes open `d` braces more than they close. -/
inductive Line : Str → List Str → Int → Prop
  | nil : Line [] [] 0
  | comment (s : Str) : Line ('#' :: s) [] 0
  | blank {c : Char} {s : Str} {ts : List Str} {d : Int} : isBlank c = true → Line s ts d → Line (c :: s) ts d
  | last {w : Str} : Plain w → Line w [w] (net w)
  | word {w : Str} {c : Char} {s : Str} {ts : List Str} {d : Int} : Plain w → isBlank c = true → Line s ts d → Line (w ++ c :: s) (w :: ts) (net w + d)
  | beforeQuote {w s : Str} {ts : List Str} {d : Int} : Plain w → Line ('"' :: s) ts d → Line (w ++ '"' :: s) (w :: ts) (net w + d)
  | quoted {w s : Str} {ts : List Str} {d : Int} : w ≠ [] → '"' ∉ w → Line s ts d → Line ('"' :: w ++ '"' :: s) (w :: ts) d
  | empty {s : Str} {ts : List Str} {d : Int} : Line s ts d → Line ('"' :: '"' :: s) ts d

/-- A line that says nothing: empty, a comment, or blanks only. -/
def Silent (l : Str) : Prop := l = [] ∨ l.head? = some '*' ∨ l.head? = some '#' ∨ Line l [] 0

/-- A line that says something. -/
structure Says (l : Str) (ts : List Str) (d : Int) : Prop where
  line : Line l ts d
  words : ts ≠ []
  star : l.head? ≠ some '*'

/-- `Block d ls ts`: with `d` braces open, the lines `ls` complete a statement with the words `ts`: the braces are balanced after the last line and not
before. -/
inductive Block : Int → List Str → List Str → Prop
  | last {d e : Int} {l : Str} {ts : List Str} : Says l ts e → d + e = 0 → Block d [l] ts
  | more {d e : Int} {l : Str} {ls : List Str} {ts us : List Str} : Says l ts e → d + e ≠ 0 → Block (d + e) ls us → Block d (l :: ls) (ts ++ us)
  | skip {d : Int} {l : Str} {ls : List Str} {ts : List Str} : Silent l → Block d ls ts → Block d (l :: ls) ts

/-- `Statements ls ss`: the lines `ls` are the statements `ss`, with the words that are braces left out. -/
inductive Statements : List Str → List (List Str) → Prop
  | nil : Statements [] []
  | skip {l : Str} {ls : List Str} {ss : List (List Str)} : Silent l → Statements ls ss → Statements (l :: ls) ss
  | block {b ls : List Str} {ts : List Str} {ss : List (List Str)} : Block 0 b ts → Statements ls ss →
      Statements (b ++ ls) (ts.filter (fun w => w ≠ ['{'] ∧ w ≠ ['}']) :: ss)

/-- `Settings fs expand ss es`: carrying out the statements `ss`, with the statements of imported files in their place, makes the settings `es`. -/
inductive Settings (fs : Str → Option Str) (expand : Str → Str) : List (List Str) → List (List Str) → Prop
  | nil : Settings fs expand [] []
  | set {key : Str} {args : List Str} {ss es : List (List Str)} : key ∉ keywords → Settings fs expand ss es →
      Settings fs expand ((key :: args) :: ss) ((key :: args) :: es)
  | keyword {key : Str} {args : List Str} {ss es : List (List Str)} : key ∈ keywords → key ≠ "Import".toList → Settings fs expand ss es →
      Settings fs expand ((key :: args) :: ss) es
  | missing {file : Str} {ss es : List (List Str)} : fs (expand file) = none → Settings fs expand ss es →
      Settings fs expand (["Import".toList, file] :: ss) es
  | imported {file text : Str} {ss us es vs : List (List Str)} : fs (expand file) = some text → '\r' ∉ text →
      Statements (getlines '\n' text) us → Settings fs expand us vs →
      Settings fs expand ss es → Settings fs expand (["Import".toList, file] :: ss) (vs ++ es)

/-- The last of the settings that begins with the given key. -/
def lastSet (es : List (List Str)) (key : Str) : Option (List Str) := es.reverse.find? fun e => e.head? = some key

/-- `Commands fs expand args es`: the command line arguments `args` make the settings `es`.  An argument without `--` names a file; `--key=words`,
`--key words` and `--key` (which sets it to 1) set a key. -/
inductive Commands (fs : Str → Option Str) (expand : Str → Str) : List Str → List (List Str) → Prop
  | nil : Commands fs expand [] []
  | missing {file : Str} {rest : List Str} {es : List (List Str)} : ¬ ['-', '-'] <:+: file → fs file = none → Commands fs expand rest es →
      Commands fs expand (file :: rest) es
  | file {file text : Str} {rest : List Str} {us vs es : List (List Str)} : ¬ ['-', '-'] <:+: file → fs file = some text → '\r' ∉ text →
      Statements (getlines '\n' text) us → Settings fs expand us vs → Commands fs expand rest es → Commands fs expand (file :: rest) (vs ++ es)
  | assign {key words : Str} {ts rest : List Str} {d : Int} {es : List (List Str)} : Plain key → '=' ∉ key → key ∉ keywords → Line words ts d →
      Commands fs expand rest es → Commands fs expand ((['-', '-'] ++ key ++ ['='] ++ words) :: rest) ((key :: ts) :: es)
  | pair {key words : Str} {ts rest : List Str} {d : Int} {es : List (List Str)} : Plain key → '=' ∉ key → key ∉ keywords →
      ¬ ['-', '-'] <:+: words → Line words ts d →
      Commands fs expand rest es → Commands fs expand ((['-', '-'] ++ key) :: words :: rest) ((key :: ts) :: es)
  | flag {key : Str} {rest : List Str} {es : List (List Str)} : Plain key → '=' ∉ key → key ∉ keywords →
      (∀ next, rest.head? = some next → ['-', '-'] <:+: next) → Commands fs expand rest es →
      Commands fs expand ((['-', '-'] ++ key) :: rest) ([key, ['1']] :: es)

end AmpGen.Options
