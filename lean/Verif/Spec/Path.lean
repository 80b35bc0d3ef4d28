import Verif.Model.Base
/-
The lexical meaning of a path: its components, with empty ones and `.` left out and
`..` taking back the one before it.
-/
namespace Urkel.Path

/-- Splitting at '/'. -/
def split : Bytes → List Bytes
  | [] => [[]]
  | c :: cs =>
    if c = 47 then [] :: split cs
    else match split cs with
      | [] => [[c]]
      | h :: t => (c :: h) :: t

/-- One component after those in `st`; `..` at the root stays at the root. -/
def push (st : List Bytes) (c : Bytes) : List Bytes :=
  if c = [] ∨ c = [46] then st else if c = [46, 46] then st.dropLast else st ++ [c]

/-- The components a path names. -/
def resolve (p : Bytes) : List Bytes := (split p).foldl push []

/-- The path naming the given components from the root. -/
def join : List Bytes → Bytes
  | [] => [47]
  | cs => cs.flatMap fun c => 47 :: c

/-- The normal form of an absolute path. -/
def normal (p : Bytes) : Bytes := join (resolve p)

end Urkel.Path
