import Verif.Model.Train
import Verif.Model.Factor
/-
Text files: io/Utils.{h,cpp} (in src/src/io) and io/TrainSetImport.cpp.

The content of a file is a list of characters. A path which can not be opened is `none`. Errors of the
stream while a file is read are not modelled.
-/

namespace EFG
namespace Text

/-- The texts got by `std::getline` in the loop of `for_each_line` (src/io/Utils.h:42-50). The end of the
file is noticed only when a line reaches it, so that an empty line follows a final newline and an empty file
has one empty line. -/
def lines : List Char → List (List Char)
  | [] => [[]]
  | c :: cs =>
    if c = '\n' then [] :: lines cs
    else
      match lines cs with
      | [] => [[c]]
      | l :: ls => (c :: l) :: ls

/-- `std::isspace` in the "C" locale. -/
def isSpace (c : Char) : Bool :=
  c == ' ' || c == '\t' || c == '\n' || c == '\r' || c == Char.ofNat 11 || c == Char.ofNat 12

/-- The words read by `>>` from a line (io/Utils.cpp:15-22), with the characters of the current word in
reversed order. -/
def words (current : List Char) : List Char → List (List Char)
  | [] => if current.isEmpty then [] else [current.reverse]
  | c :: cs =>
    if isSpace c then
      if current.isEmpty then words [] cs else current.reverse :: words [] cs
    else words (c :: current) cs

/-- The digits at the beginning of a text, as a number. -/
def leadingNumber (l : List Char) : Nat := Nat.ofDigitChars 10 (l.takeWhile Char.isDigit) 0

/-- A number with an optional sign. -/
def signedNumber (l : List Char) : Int :=
  if l.head? = some '-' then - (leadingNumber l.tail : Int)
  else if l.head? = some '+' then leadingNumber l.tail
  else leadingNumber l

/-- `std::atoi`. A value out of the range of an `int` is undefined behaviour. -/
def atoi (l : List Char) : Res Int :=
  let v := signedNumber (l.dropWhile isSpace)
  if v < -(2 ^ 31) ∨ 2 ^ 31 ≤ v then .ub else .ok v

/-- `static_cast<std::size_t>(std::atoi(...))`: negative values are reduced modulo 2^64. -/
def atoSize (l : List Char) : Res Nat :=
  match atoi l with
  | .ok v => .ok (v % 2 ^ 64).toNat
  | .throw => .throw
  | .ub => .ub

/-- `std::to_string(std::size_t)`. -/
def ofNat (n : Nat) : List Char := Nat.toDigits 10 n

end Text

/-- How numbers are printed by `std::to_string(float)` and read by `static_cast<float>(std::atof(...))`.
Nothing is assumed about the two functions: theorems which need it say which numbers are read as they were
printed. -/
structure FloatText (F : Type) where
  print : F → List Char
  parse : List Char → F

namespace Text
variable {F : Type}

/-- `parse_combination_image` (io/Utils.cpp:13-30). On a line without words `tokens.end() - 1` and
`tokens.back()` are undefined. -/
def parseCombinationImage (tx : FloatText F) (line : List Char) : Res (List Nat × F) :=
  let tokens := words [] line
  match tokens.getLast? with
  | none => .ub
  | some last =>
    match Res.mapList atoSize tokens.dropLast with
    | .ok comb => .ok (comb, tx.parse last)
    | .throw => .throw
    | .ub => .ub

/-- One line of `import_train_set` (io/TrainSetImport.cpp:19-28): the state is the expected size and the
combinations pushed so far. `combinations.emplace_back(std::move(expected_size))` constructs a vector of
`expected_size` null values. -/
def trainSetLine (tx : FloatText F) (st : Nat × List (List Nat)) (line : List Char) : Res (Nat × List (List Nat)) :=
  match parseCombinationImage tx line with
  | .ok (comb, _) =>
    if st.1 ≠ 0 ∧ comb.length ≠ st.1 then .throw
    else .ok (comb.length, st.2 ++ [List.replicate comb.length 0])
  | .throw => .throw
  | .ub => .ub

/-- `import_train_set` (io/TrainSetImport.cpp:14-31). -/
def importTrainSet (tx : FloatText F) (file : Option (List Char)) : Res (List (List Nat)) :=
  match file with
  | none => .throw
  | some content =>
    match Res.foldList (trainSetLine tx) (0, []) (lines content) with
    | .ok st => makeTrainSet st.2
    | .throw => .throw
    | .ub => .ub

variable [Arith F]

/-- Runs a call on the elements of a list, one after the other. -/
def onEach {α σ : Type} (f : α → M σ Unit) : List α → M σ Unit
  | [], s => .ok s ()
  | a :: l, s =>
    match f a s with
    | .ok s' _ => onEach f l s'
    | .throw s' => .throw s'
    | .ub => .ub

/-- One line of `import_values` (io/Utils.cpp:38-44). -/
def valuesLine (tx : FloatText F) (size : Nat) (line : List Char) : M (Fn F) Unit := fun f =>
  match parseCombinationImage tx line with
  | .ok (comb, img) => if comb.length ≠ size then .throw f else Fn.mutableSet comb img f
  | .throw => .throw f
  | .ub => .ub

/-- `import_values` (io/Utils.cpp:32-46). -/
def importValues (tx : FloatText F) (file : Option (List Char)) : M (Fn F) Unit := fun f =>
  match file with
  | none => .throw f
  | some content => onEach (valuesLine tx f.vars.group.length) (lines content) f.clear

/-! ### Decimal numbers, used in the concrete examples -/

/-- `m / n` rounded to the nearest natural number, to the even one in the middle. -/
def roundHalfEven (m n : Nat) : Nat :=
  if 2 * (m % n) < n ∨ (2 * (m % n) = n ∧ m / n % 2 = 0) then m / n else m / n + 1

/-- The format "%f" of `std::to_string`: six decimals. -/
def printFixed : Ext ℚ → List Char
  | .val x =>
    let n := roundHalfEven (x.num.natAbs * 10 ^ 6) x.den
    (if x < 0 then ['-'] else []) ++ ofNat (n / 10 ^ 6) ++
      '.' :: (List.replicate (6 - (ofNat (n % 10 ^ 6)).length) '0' ++ ofNat (n % 10 ^ 6))
  | .nan => "nan".toList

/-- A number without a sign and without an exponent. -/
def unsignedDecimal (l : List Char) : ℚ :=
  let whole := l.takeWhile Char.isDigit
  let rest := l.dropWhile Char.isDigit
  let dec := if rest.head? = some '.' then rest.tail.takeWhile Char.isDigit else []
  (Nat.ofDigitChars 10 whole 0 : ℚ) + (Nat.ofDigitChars 10 dec 0 : ℚ) / 10 ^ dec.length

/-- `std::atof` on decimal numbers without an exponent. -/
def parseFixed (l : List Char) : Ext ℚ :=
  let t := l.dropWhile isSpace
  if t = "nan".toList then .nan
  else if t.head? = some '-' then .val (- unsignedDecimal t.tail)
  else if t.head? = some '+' then .val (unsignedDecimal t.tail)
  else .val (unsignedDecimal t)

/-- Numbers printed with six decimals. -/
def fixed : FloatText (Ext ℚ) := ⟨printFixed, parseFixed⟩

end Text
end EFG
