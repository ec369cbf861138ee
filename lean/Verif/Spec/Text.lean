import Mathlib.Data.List.Basic
import Verif.Spec.Basic
/- What it means that a text consists of lines, a line of words, and that a word is a number. -/

namespace EFG

/-- The characters which separate words. -/
def Blank (c : Char) : Prop := c ∈ [' ', '\t', '\n', '\r', Char.ofNat 11, Char.ofNat 12]

instance (c : Char) : Decidable (Blank c) := by unfold Blank; infer_instance

/-- A text consisting of the given words with blanks around them. -/
inductive Spells : List (List Char) → List Char → Prop where
  | done {ws : List Char} : (∀ c ∈ ws, Blank c) → Spells [] ws
  | word {ws w rest : List Char} {l : List (List Char)} : (∀ c ∈ ws, Blank c) → w ≠ [] → (∀ c ∈ w, ¬ Blank c) →
      (∀ c ∈ rest.head?, Blank c) → Spells l rest → Spells (w :: l) (ws ++ w ++ rest)

/-- A file consisting of the given lines, with newlines between them and none at the end. -/
def HasLines (ls : List (List Char)) (content : List Char) : Prop :=
  ls ≠ [] ∧ (∀ l ∈ ls, '\n' ∉ l) ∧ content = ['\n'].intercalate ls

/-- Digits, possibly with zeros in front, which have the given value. -/
def Writes (n : Nat) (w : List Char) : Prop :=
  w ≠ [] ∧ (∀ c ∈ w, c ∈ "0123456789".toList) ∧ w.foldl (fun x c => 10 * x + (c.toNat - '0'.toNat)) 0 = n

/-- The words are the numbers of the combination, in order. -/
def WritesAll (comb : List Nat) (ws : List (List Char)) : Prop := List.Forall₂ Writes comb ws

/-- A line with the numbers of a combination, which fit in an `int`. -/
def CombinationLine (comb : List Nat) (line : List Char) : Prop :=
  ∃ ws, WritesAll comb ws ∧ Spells ws line ∧ ∀ n ∈ comb, n < 2 ^ 31

/-- A line with the numbers of a combination and a last word. -/
def EntryLine (comb : List Nat) (word line : List Char) : Prop :=
  ∃ ws, WritesAll comb ws ∧ Spells (ws ++ [word]) line ∧ ∀ n ∈ comb, n < 2 ^ 31

/-- A file with one combination per line. -/
def CombinationFile (combs : List (List Nat)) (content : List Char) : Prop :=
  ∃ ls, HasLines ls content ∧ List.Forall₂ CombinationLine combs ls

/-- A file with one combination and one image per line. -/
def ValuesFile (entries : List (List Nat × List Char)) (content : List Char) : Prop :=
  ∃ ls, HasLines ls content ∧ List.Forall₂ (fun e l => EntryLine e.1 e.2 l) entries ls

end EFG
