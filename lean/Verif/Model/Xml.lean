import Verif.Model.Objects
import Verif.Model.Text

/-!
# Model of the XML text, its reader and writer, and of src/parse.cxx and src/deparse.cxx

Strings are lists of characters without the zero character, which ends a text. Comments, processing
instructions, CDATA, doctypes and numeric character references are not modelled: the reader of this
model refuses them. The writer never makes them.
-/

namespace Neml.Xml

open Neml.Objects (Kind)
open Neml.Text

/-- Strings. -/
abbrev S := List Char

/-- rapidxml.hpp `xml_node`: elements and data nodes. A leaf written with a value and no child prints as
an element with one data child (rapidxml_print.hpp:291-302), so it is modelled as one. -/
inductive Node
  | elem (name : S) (attrs : List (S × S)) (kids : List Node)
  | data (value : S)
  

/-! ## Writing: rapidxml_print.hpp -/

/-- rapidxml_print.hpp:46-82 `copy_and_expand_chars`, one character. -/
def escChar (noexpand : Option Char) (c : Char) : S :=
  if noexpand = some c then [c]
  else if c = '<' then ['&', 'l', 't', ';']
  else if c = '>' then ['&', 'g', 't', ';']
  else if c = '\'' then ['&', 'a', 'p', 'o', 's', ';']
  else if c = '"' then ['&', 'q', 'u', 'o', 't', ';']
  else if c = '&' then ['&', 'a', 'm', 'p', ';']
  else [c]

/-- rapidxml_print.hpp:46-82 `copy_and_expand_chars`. -/
def esc (noexpand : Option Char) (v : S) : S := v.flatMap (escChar noexpand)

/-- rapidxml_print.hpp:205-230 `print_attributes`. -/
def printAttrs : List (S × S) → S
  | [] => []
  | (n, v) :: rest =>
    ' ' :: n ++ '=' ::
      (if '"' ∈ v then '\'' :: esc (some '"') v ++ ['\''] else '"' :: esc (some '\'') v ++ ['"']) ++
      printAttrs rest

/-- `fill_chars(out, indent, '\t')`. -/
def tabs (n : Nat) : S := List.replicate n '\t'

mutual

/-- rapidxml_print.hpp:134-192 `print_node` with 234-242 `print_data_node` and 269-320
`print_element_node`. -/
def printNode (indent : Nat) : Node → S
  | .data v => tabs indent ++ esc none v ++ ['\n']
  | .elem name attrs [] => tabs indent ++ '<' :: name ++ printAttrs attrs ++ ['/', '>', '\n']
  | .elem name attrs [.data v] =>
    tabs indent ++ '<' :: name ++ printAttrs attrs ++ '>' :: esc none v ++ '<' :: '/' :: name ++ ['>', '\n']
  | .elem name attrs kids =>
    tabs indent ++ '<' :: name ++ printAttrs attrs ++ '>' :: '\n' :: printKids (indent + 1) kids ++
      tabs indent ++ '<' :: '/' :: name ++ ['>', '\n']

/-- rapidxml_print.hpp:195-201 `print_children`. -/
def printKids (indent : Nat) : List Node → S
  | [] => []
  | k :: ks => printNode indent k ++ printKids indent ks

end

/-- rapidxml_print.hpp:415-418 `print` on a document: its children and a line break. -/
def printDoc (kids : List Node) : S := printKids 0 kids ++ ['\n']

/-! ## Reading: rapidxml.hpp with flags 0 -/

/-- rapidxml.hpp lookup_whitespace. -/
def ws (c : Char) : Bool := c = ' ' || c = '\n' || c = '\r' || c = '\t'

/-- rapidxml.hpp lookup_node_name. -/
def nameCh (c : Char) : Bool := !(ws c || c = '/' || c = '>' || c = '?' || c = '\x00')

/-- rapidxml.hpp lookup_attribute_name. -/
def attrCh (c : Char) : Bool :=
  !(ws c || c = '/' || c = '<' || c = '>' || c = '=' || c = '?' || c = '!' || c = '\x00')

/-- rapidxml.hpp lookup_text. -/
def textCh (c : Char) : Bool := !(c = '<' || c = '\x00')

/-- rapidxml.hpp lookup_attribute_data_1, lookup_attribute_data_2. -/
def valueCh (q : Char) (c : Char) : Bool := !(c = q || c = '\x00')

/-- Put a character in front of what was read. -/
def put (c : Char) (r : Option (S × S)) : Option (S × S) := r.map fun p => (c :: p.1, p.2)

/-- rapidxml.hpp:1570-1716 `skip_and_expand_character_refs` with flags 0: the value read and the rest of
the text. `none` for a numeric reference, which is not modelled. -/
def takeText (keep : Char → Bool) : S → Option (S × S)
  | [] => some ([], [])
  | '&' :: 'a' :: 'm' :: 'p' :: ';' :: cs => put '&' (takeText keep cs)
  | '&' :: 'a' :: 'p' :: 'o' :: 's' :: ';' :: cs => put '\'' (takeText keep cs)
  | '&' :: 'q' :: 'u' :: 'o' :: 't' :: ';' :: cs => put '"' (takeText keep cs)
  | '&' :: 'g' :: 't' :: ';' :: cs => put '>' (takeText keep cs)
  | '&' :: 'l' :: 't' :: ';' :: cs => put '<' (takeText keep cs)
  | '&' :: '#' :: _ => none
  | c :: cs => if keep c then put c (takeText keep cs) else some ([], c :: cs)

/-- `skip<whitespace_pred>`. -/
def skipWs (cs : S) : S := cs.dropWhile ws

/-- rapidxml.hpp:2237-2300 `parse_node_attributes`. -/
def parseAttrs : Nat → S → Option (List (S × S) × S)
  | 0, _ => none
  | fuel + 1, cs =>
    match cs.takeWhile attrCh with
    | [] => some ([], cs)
    | name =>
      match skipWs (cs.dropWhile attrCh) with
      | '=' :: r =>
        match skipWs r with
        | q :: r' =>
          if q = '\'' ∨ q = '"' then
            match takeText (valueCh q) r' with
            | some (v, q' :: r'') =>
              if q' = q then (parseAttrs fuel (skipWs r'')).map fun p => ((name, v) :: p.1, p.2) else none
            | _ => none
          else none
        | [] => none
      | _ => none

/-- rapidxml.hpp:2180-2203: the rest of a closing tag. The name is not compared. -/
def closeTag (cs : S) : Option S :=
  match skipWs (cs.dropWhile nameCh) with
  | '>' :: r => some r
  | _ => none

mutual

/-- rapidxml.hpp:2037-2076 `parse_element`, and 2080-2163 `parse_node` for what is not an element. -/
def parseElem : Nat → S → Option (Node × S)
  | 0, _ => none
  | fuel + 1, cs =>
    match cs.takeWhile nameCh with
    | [] => none
    | '!' :: _ => none
    | name =>
      match parseAttrs fuel (skipWs (cs.dropWhile nameCh)) with
      | some (attrs, '>' :: r) =>
        (parseContents fuel r).map fun p => (.elem name attrs p.1, p.2)
      | some (attrs, '/' :: '>' :: r) => some (.elem name attrs [], r)
      | _ => none

/-- rapidxml.hpp:2167-2233 `parse_node_contents` with 1940-1985 `parse_and_append_data`. Blanks before
data belong to the data; blanks alone are dropped. -/
def parseContents : Nat → S → Option (List Node × S)
  | 0, _ => none
  | fuel + 1, cs =>
    match skipWs cs with
    | [] => none
    | '\x00' :: _ => none
    | '<' :: '/' :: r => (closeTag r).map fun r' => ([], r')
    | '<' :: r =>
      match parseElem fuel r with
      | some (n, r') => (parseContents fuel r').map fun p => (n :: p.1, p.2)
      | none => none
    | _ =>
      match takeText textCh cs with
      | some (v, r) => (parseContents fuel r).map fun p => (.data v :: p.1, p.2)
      | none => none

end

/-- rapidxml.hpp:1393-1412, the loop of `parse`. -/
def parseKids : Nat → S → Option (List Node)
  | 0, _ => none
  | fuel + 1, cs =>
    match skipWs cs with
    | [] => some []
    | '<' :: r =>
      match parseElem fuel r with
      | some (n, r') => (parseKids fuel r').map (n :: ·)
      | none => none
    | _ => none

/-- rapidxml.hpp:1381-1415 `parse<0>`: the loops stop after at most as many rounds as there are
characters. -/
def parseDoc (cs : S) : Option (List Node) := parseKids (cs.length + 1) cs

/-! ## Parameter trees: deparse.cxx and parse.cxx -/

/-- The value of a parameter; an object is its type with the values of its parameters in the order of
declaration. -/
inductive Val (D : Type)
  | double (x : D)
  | int (x : Int)
  | bool (x : Bool)
  | vecDouble (x : List D)
  | string (x : S)
  | slip (x : List (List Int × List Int))
  | sizeType (x : Nat)
  | vecSizeType (x : List Nat)
  | twin (x : List (List Int × List Int × List Int × List Int))
  | object (type : S) (params : List (S × Val D))
  | vecObject (x : List (Val D))

/-- The declared type a value is stored under. -/
def Val.kind {D : Type} : Val D → Kind
  | .double _ => .double
  | .int _ => .int
  | .bool _ => .bool
  | .vecDouble _ => .vecDouble
  | .string _ => .string
  | .slip _ => .slip
  | .sizeType _ => .sizeType
  | .vecSizeType _ => .vecSizeType
  | .twin _ => .twin
  | .object _ _ => .object
  | .vecObject _ => .vecObject

/-- A leaf with a text. -/
def leaf (name text : S) : Node := .elem name [] (if text = [] then [] else [.data text])

/-- The name of the type attribute. -/
def typeKey : S := ['t', 'y', 'p', 'e']
/-- The child name that is skipped, parse.cxx:168. -/
def textKey : S := ['t', 'e', 'x', 't']
/-- The type of a node without a type attribute, parse.cxx:426. -/
def noneKey : S := ['n', 'o', 'n', 'e']

section write

variable {D : Type} (fmt : D → S)

mutual

/-- deparse.cxx:39-105 `make_object_node` and the makers of the other nodes, 107-209. -/
def toNode (name : S) : Val D → Node
  | .double x => leaf name (fmt x)
  | .int x => leaf name (showInt x)
  | .bool x => leaf name (if x then ['t', 'r', 'u', 'e'] else ['f', 'a', 'l', 's', 'e'])
  | .vecDouble x => leaf name (showDoubles fmt x)
  | .string x => leaf name x
  | .slip x => leaf name (showSlip x)
  | .sizeType x => leaf name (Nat.toDigits 10 x)
  | .vecSizeType x => leaf name (showSizes x)
  | .twin x => leaf name (showTwin x)
  | .object type params => .elem name [(typeKey, type)] (paramNodes params)
  | .vecObject x => .elem name [] (vecNodes name 0 x)

/-- deparse.cxx:50-102, the loop over the parameters. -/
def paramNodes : List (S × Val D) → List Node
  | [] => []
  | (n, v) :: rest => toNode n v :: paramNodes rest

/-- deparse.cxx:195-209, the loop of `make_vec_object_node`. -/
def vecNodes (name : S) (i : Nat) : List (Val D) → List Node
  | [] => []
  | v :: rest => toNode (name ++ Nat.toDigits 10 i) v :: vecNodes name (i + 1) rest

end

/-- deparse.cxx:28-37 `deparse_to_string` with no top node. -/
def deparse (name : S) (v : Val D) : S := printDoc [toNode fmt name v]

end write

/-- What can go wrong in parse.cxx. `nullDeref` is the use of `node->first_node()` when there is none;
`badFunctionCall` is the call of an empty `std::function` for an unregistered type. -/
inductive Err
  | invalidType (name expected : S)
  | unknownParameter (node name : S)
  | undefinedParameters (type : S)
  | badFunctionCall
  | nullDeref
  | badXml
  deriving DecidableEq

/-- `node->name()`. -/
def Node.name : Node → S
  | .elem n _ _ => n
  | .data _ => []

/-- `node->value()`: for an element the first data text (rapidxml.hpp:1972-1974). -/
def Node.value : Node → S
  | .data v => v
  | .elem _ _ kids => ((kids.filterMap fun
      | .data v => if v = [] then none else some v
      | .elem _ _ _ => none).head?).getD []

/-- The children. -/
def Node.kids : Node → List Node
  | .data _ => []
  | .elem _ _ ks => ks

/-- parse.cxx:417-427 `get_type_of_node`. -/
def typeOf : Node → S
  | .data _ => noneKey
  | .elem _ attrs _ => ((attrs.find? fun p => p.1 = typeKey).map (·.2)).getD noneKey

/-- parse.cxx:296-304 `get_string`. -/
def getString (n : Node) : Except Err S :=
  match n.kids with
  | [] => .error .nullDeref
  | k :: _ => if k.value = [] then .error (.invalidType n.name "string".toList) else .ok k.value

/-- The pattern of parse.cxx:246-279, 394-415: read the text, convert it, turn any exception into
`InvalidType`. A null pointer is no exception. -/
def viaString {α : Type} (n : Node) (expected : S) (conv : S → Option α) : Except Err α :=
  match getString n with
  | .error .nullDeref => .error .nullDeref
  | .error _ => .error (.invalidType n.name expected)
  | .ok t => match conv t with
    | none => .error (.invalidType n.name expected)
    | some x => .ok x

/-- parse.cxx:281-294 `get_bool`. -/
def readBool (t : S) : Option Bool :=
  if t = "true".toList ∨ t = "True".toList ∨ t = "T".toList ∨ t = "1".toList then some true
  else if t = "false".toList ∨ t = "False".toList ∨ t = "F".toList ∨ t = "0".toList then some false
  else none

section read

variable {D : Type} (stod : S → Option D)

/-- parse.cxx:246-415: the readers of the plain types. Exceptions of `std::stoi` in `get_slip` and
`get_twin` pass through; they are not told apart here. -/
def getPlain (n : Node) : Kind → Except Err (Val D)
  | .double => (viaString n "double".toList stod).map .double
  | .int => (viaString n "int".toList stoi).map .int
  | .bool => (viaString n "bool".toList readBool).map .bool
  | .vecDouble =>
    if n.kids = [] then .ok (.vecDouble [])
    else (viaString n "vector<double>".toList (splitDoubles stod)).map .vecDouble
  | .string => (getString n).map .string
  | .slip =>
    if n.value = [] then .ok (.slip []) else (viaString n "slip".toList getSlip).map .slip
  | .sizeType => (viaString n "size_t".toList stoul).map .sizeType
  | .vecSizeType =>
    if n.kids = [] then .ok (.vecSizeType [])
    else (viaString n "vector<size_t>".toList splitSizes).map .vecSizeType
  | .twin =>
    if n.value = [] then .ok (.twin []) else (viaString n "twin".toList getTwin).map .twin
  | .object => .error .badXml
  | .vecObject => .error .badXml

/-- A declared parameter with its value so far. -/
abbrev Slot (D : Type) := S × Kind × Option (Val D)

/-- The factory: the declared parameters of a registered type with their default values
(`Factory::provide_parameters`). -/
abbrev Schema (D : Type) := S → Option (List (Slot D))

/-- `assign_parameter` on the slots. -/
def setSlot (name : S) (v : Val D) (slots : List (Slot D)) : List (Slot D) :=
  slots.map fun s => if s.1 = name then (s.1, s.2.1, some v) else s

/-- `get_object_type`, `none` if the name is not declared. -/
def slotKind (name : S) (slots : List (Slot D)) : Option Kind :=
  (slots.find? fun s => s.1 = name).map (·.2.1)

/-- `Factory::create` on a full set of values (objects.cxx:109-116); constructors accept all values. -/
def build (type : S) (slots : List (Slot D)) : Except Err (Val D) :=
  match slots.mapM fun s => s.2.2.map fun v => (s.1, v) with
  | some ps => .ok (.object type ps)
  | none => .error (.undefinedParameters type)

/-- interpolate.cxx:638-644 `make_constant`. -/
def constantOf (x : D) : Val D := .object "ConstantInterpolate".toList [("v".toList, .double x)]

/-- parse.cxx:223-234: a single data child is read as a list of constants. -/
def soleData (name : S) : List Node → Option (Except Err (List (Val D)))
  | [.data v] => some <|
    (viaString (.elem name [] [.data v]) "vector<double>".toList (splitDoubles stod)).map (·.map constantOf)
  | _ => none

variable (schema : Schema D)

mutual

/-- parse.cxx:136-147 `get_object`. -/
def getObject : Node → Except Err (Val D)
  | .data _ => .error .nullDeref
  | .elem name attrs kids =>
    if typeOf (.elem name attrs kids) = noneKey then
      (viaString (.elem name attrs kids) "double".toList stod).map constantOf
    else
      match schema (typeOf (.elem name attrs kids)) with
      | none => .error .badFunctionCall
      | some slots =>
        match getParams name slots kids with
        | .error e => .error e
        | .ok slots' => build (typeOf (.elem name attrs kids)) slots'

/-- parse.cxx:165-213, the loop of `get_parameters`. -/
def getParams (node : S) (slots : List (Slot D)) : List Node → Except Err (List (Slot D))
  | [] => .ok slots
  | .data _ :: _ => .error (.unknownParameter node [])
  | .elem n attrs kids :: rest =>
    if n = textKey then getParams node slots rest
    else
      match slotKind n slots with
      | none => .error (.unknownParameter node n)
      | some .object =>
        match getObject (.elem n attrs kids) with
        | .error e => .error e
        | .ok v => getParams node (setSlot n v slots) rest
      | some .vecObject =>
        match soleData stod n kids with
        | some (.error e) => .error e
        | some (.ok vs) => getParams node (setSlot n (.vecObject vs) slots) rest
        | none =>
          match getObjects kids with
          | .error e => .error e
          | .ok vs => getParams node (setSlot n (.vecObject vs) slots) rest
      | some k =>
        match getPlain stod (.elem n attrs kids) k with
        | .error e => .error e
        | .ok v => getParams node (setSlot n v slots) rest

/-- parse.cxx:221, 236-240, the loop of `get_vector_object`. -/
def getObjects : List Node → Except Err (List (Val D))
  | [] => .ok []
  | k :: rest =>
    if k.name = textKey then getObjects rest
    else
      match getObject k with
      | .error e => .error e
      | .ok v => match getObjects rest with
        | .error e => .error e
        | .ok vs => .ok (v :: vs)

end

/-- parse.cxx:27-37 `get_object_string`. -/
def readString (cs : S) : Except Err (Val D) :=
  match parseDoc cs with
  | none => .error .badXml
  | some [] => .error .nullDeref
  | some (n :: _) => getObject stod schema n

end read

end Neml.Xml
