import Mathlib.Data.List.Basic

/-!
# Model of the text fields of src/parse.cxx and src/deparse.cxx

Strings are lists of characters. Doubles are an arbitrary type `D` with a printer and a reader.
-/

namespace Neml.Text

/-- `std::isspace` in the C locale. -/
def isSpace (c : Char) : Bool :=
  c = ' ' || c = '\t' || c = '\n' || c = '\x0b' || c = '\x0c' || c = '\r'

/-- `ss << n` for an integer. -/
def showInt : Int → List Char
  | .ofNat n => Nat.toDigits 10 n
  | .negSucc n => '-' :: Nat.toDigits 10 (n + 1)

/-- The sign and the rest of a number text. -/
def signOf : List Char → Int × List Char
  | '-' :: cs => (-1, cs)
  | '+' :: cs => (1, cs)
  | cs => (1, cs)

/-- The leading digits of a text as a number, if there are any. -/
def leadingNat (cs : List Char) : Option Nat :=
  let ds := cs.takeWhile Char.isDigit
  if ds = [] then none else some (Nat.ofDigitChars 10 ds 0)

/-- `std::stoi`: skip blanks, optional sign, digits, ignore the rest; throws without digits and outside
the range of a 32 bit integer. -/
def stoi (cs : List Char) : Option Int :=
  let p := signOf (cs.dropWhile isSpace)
  match leadingNat p.2 with
  | none => none
  | some n =>
    let v := p.1 * n
    if -2 ^ 31 ≤ v ∧ v < 2 ^ 31 then some v else none

/-- `std::stoul`: as `stoi` for 64 bit unsigned numbers; a negative number wraps around. -/
def stoul (cs : List Char) : Option Nat :=
  let p := signOf (cs.dropWhile isSpace)
  match leadingNat p.2 with
  | none => none
  | some n => if n < 2 ^ 64 then some ((p.1 * n) % 2 ^ 64).toNat else none

/-- parse.cxx:429-438 `split_string`: `while (ss >> temp)`; `cur` is the word being read. -/
def tok (cur : List Char) : List Char → List (List Char)
  | [] => if cur = [] then [] else [cur]
  | c :: cs =>
    if isSpace c then (if cur = [] then tok [] cs else cur :: tok [] cs) else tok (cur ++ [c]) cs

/-- parse.cxx:460-468 `split_string_int`. -/
def splitInts (cs : List Char) : Option (List Int) := (tok [] cs).mapM stoi

/-- parse.cxx:450-458 `split_string_size_type`. -/
def splitSizes (cs : List Char) : Option (List Nat) := (tok [] cs).mapM stoul

/-- parse.cxx:440-448 `split_string_double`, with `std::stod` as a parameter. -/
def splitDoubles {D : Type} (stod : List Char → Option D) (cs : List Char) : Option (List D) :=
  (tok [] cs).mapM stod

/-- parse.cxx:470-478 `strip`. -/
def strip (cs : List Char) : List Char :=
  ((cs.dropWhile isSpace).reverse.dropWhile isSpace).reverse

/-- `std::getline(ss, to, sep)` in a loop; `cur` is the piece being read. -/
def pieces (sep : Char) (cur : List Char) : List Char → List (List Char)
  | [] => if cur = [] then [] else [cur]
  | c :: cs => if c = sep then cur :: pieces sep [] cs else pieces sep (cur ++ [c]) cs

/-- `substr(0, find(";"))` and `substr(find(";") + 1)`. -/
def cut : List Char → Option (List Char × List Char)
  | [] => none
  | c :: cs => if c = ';' then some ([], cs) else (cut cs).map fun p => (c :: p.1, p.2)

/-- parse.cxx:326-330, 362-379: the text up to the next semicolon and the position after it. Without a
semicolon `find` is `npos`, the whole rest is taken, and `npos + 1` is the start of `full`. -/
def field (full cs : List Char) : List Char × List Char := (cut cs).getD (cs, full)

/-- parse.cxx:318-337, the body of the loop of `get_slip`. -/
def slipOne (cs : List Char) : Option (List Int × List Int) :=
  let p := field cs cs
  match splitInts (strip p.1), splitInts (strip p.2) with
  | some d, some n => some (d, n)
  | _, _ => none

/-- parse.cxx:306-340 `get_slip` on the text of the node. -/
def getSlip (cs : List Char) : Option (List (List Int × List Int)) :=
  (((pieces ',' [] cs).map strip).filter fun p => p ≠ []).mapM slipOne

/-- parse.cxx:354-389, the body of the loop of `get_twin`. -/
def twinOne (cs : List Char) : Option (List Int × List Int × List Int × List Int) :=
  let p1 := field cs cs
  let p2 := field cs p1.2
  let p3 := field cs p2.2
  match splitInts (strip p1.1), splitInts (strip p2.1), splitInts (strip p3.1), splitInts (strip p3.2) with
  | some a, some b, some c, some d => some (a, b, c, d)
  | _, _, _, _ => none

/-- parse.cxx:342-392 `get_twin` on the text of the node. -/
def getTwin (cs : List Char) : Option (List (List Int × List Int × List Int × List Int)) :=
  (((pieces ',' [] cs).map strip).filter fun p => p ≠ []).mapM twinOne

/-- deparse.cxx: `for (auto ni : v) ss << ni << " "`. -/
def showInts (l : List Int) : List Char := l.flatMap fun i => showInt i ++ [' ']

/-- deparse.h:58-68 `make_vec_simple_node<size_t>`. -/
def showSizes (l : List Nat) : List Char := l.flatMap fun i => Nat.toDigits 10 i ++ [' ']

/-- deparse.cxx:142-151 `make_vec_double_node`, with number printing as a parameter. -/
def showDoubles {D : Type} (fmt : D → List Char) (l : List D) : List Char :=
  l.flatMap fun x => fmt x ++ [' ']

/-- deparse.cxx:153-169 `make_slip_node`. -/
def showSlip (l : List (List Int × List Int)) : List Char :=
  l.flatMap fun e => showInts e.1 ++ ';' :: ' ' :: (showInts e.2 ++ [','])

/-- deparse.cxx:171-193 `make_twin_node`. -/
def showTwin (l : List (List Int × List Int × List Int × List Int)) : List Char :=
  l.flatMap fun e => showInts e.1 ++ ';' :: (showInts e.2.1 ++ ';' :: (showInts e.2.2.1 ++
    ';' :: (showInts e.2.2.2 ++ [','])))

end Neml.Text
