import Verif.Model.Xml

/-!
# Model of reading XML files as people write them

`Model/Xml` reads what the writer makes. Here the reader also skips comments, declarations, processing
instructions, doctypes and other markup that starts with `<!`. CDATA sections and numeric character
references are still refused by the model though not by the code.
-/

namespace Neml.Xml

/-- rapidxml.hpp:1773-1787 `parse_comment` without comment nodes: the text after the next `-->`. -/
def dropComment : S → Option S
  | [] => none
  | '\x00' :: _ => none
  | '-' :: '-' :: '>' :: r => some r
  | _ :: r => dropComment r

/-- rapidxml.hpp:1738-1752 `parse_xml_declaration`, 1880-1934 `parse_pi`, both without nodes: the text
after the next `?>`. The declaration has skipped `xml` and a blank before. -/
def dropPi : S → Option S
  | [] => none
  | '\x00' :: _ => none
  | '?' :: '>' :: r => some r
  | _ :: r => dropPi r

/-- rapidxml.hpp:1828-1843 the inner loop of `parse_doctype`: past the bracket that closes. -/
def dropBrackets : Nat → S → Option S
  | 0, r => some r
  | _ + 1, [] => none
  | d + 1, c :: r =>
    if c = '\x00' then none else dropBrackets (if c = '[' then d + 2 else if c = ']' then d else d + 1) r

/-- rapidxml.hpp:1814-1876 `parse_doctype` without a node. The rounds are bounded by `fuel`. -/
def dropDoctype : Nat → S → Option S
  | 0, _ => none
  | _ + 1, [] => none
  | fuel + 1, c :: r =>
    if c = '>' then some r
    else if c = '\x00' then none
    else if c = '[' then
      match dropBrackets 1 r with
      | some r' => dropDoctype fuel r'
      | none => none
    else dropDoctype fuel r

/-- rapidxml.hpp:2151-2160: the text after the next `>`. -/
def dropBang : S → Option S
  | [] => none
  | '\x00' :: _ => none
  | '>' :: r => some r
  | _ :: r => dropBang r

/-- rapidxml.hpp:2081-2162, the kinds of nodes of `parse_node` that are no elements: the text after
the node. The argument begins after `<`. -/
def dropMarkup (cs : S) : Option S :=
  match cs with
  | '?' :: r => dropPi r
  | '!' :: '-' :: '-' :: r => dropComment r
  | '!' :: '[' :: 'C' :: 'D' :: 'A' :: 'T' :: 'A' :: '[' :: _ => none
  | '!' :: 'D' :: 'O' :: 'C' :: 'T' :: 'Y' :: 'P' :: 'E' :: c :: r =>
    if ws c then dropDoctype (r.length + 1) r else dropBang ('D' :: 'O' :: 'C' :: 'T' :: 'Y' :: 'P' :: 'E' :: c :: r)
  | '!' :: r => dropBang r
  | _ => none

/-- Whether the node that begins after `<` is no element. -/
def isMarkup : S → Bool
  | '?' :: _ => true
  | '!' :: _ => true
  | _ => false

mutual

/-- rapidxml.hpp:2037-2076 `parse_element`. -/
def fileElem : Nat → S → Option (Node × S)
  | 0, _ => none
  | fuel + 1, cs =>
    match cs.takeWhile nameCh with
    | [] => none
    | name =>
      match parseAttrs fuel (skipWs (cs.dropWhile nameCh)) with
      | some (attrs, '>' :: r) =>
        (fileContents fuel r).map fun p => (.elem name attrs p.1, p.2)
      | some (attrs, '/' :: '>' :: r) => some (.elem name attrs [], r)
      | _ => none

/-- rapidxml.hpp:2167-2233 `parse_node_contents` with 1940-1985 `parse_and_append_data`. -/
def fileContents : Nat → S → Option (List Node × S)
  | 0, _ => none
  | fuel + 1, cs =>
    match skipWs cs with
    | [] => none
    | '\x00' :: _ => none
    | '<' :: '/' :: r => (closeTag r).map fun r' => ([], r')
    | '<' :: r =>
      if isMarkup r then
        match dropMarkup r with
        | some r' => fileContents fuel r'
        | none => none
      else
        match fileElem fuel r with
        | some (n, r') => (fileContents fuel r').map fun p => (n :: p.1, p.2)
        | none => none
    | _ =>
      match takeText textCh cs with
      | some (v, r) => (fileContents fuel r).map fun p => (.data v :: p.1, p.2)
      | none => none

end

/-- rapidxml.hpp:1393-1409, the loop of `parse`. -/
def fileKids : Nat → S → Option (List Node)
  | 0, _ => none
  | fuel + 1, cs =>
    match skipWs cs with
    | [] => some []
    | '<' :: r =>
      if isMarkup r then
        match dropMarkup r with
        | some r' => fileKids fuel r'
        | none => none
      else
        match fileElem fuel r with
        | some (n, r') => (fileKids fuel r').map (n :: ·)
        | none => none
    | _ => none

/-- rapidxml.hpp:1381-1415 `parse<0>` after the byte order mark. -/
def fileDoc (cs : S) : Option (List Node) := fileKids (cs.length + 1) cs

section read

variable {D : Type} (stod : S → Option D) (schema : Schema D)

/-- What reading a model from a file can end with, apart from errors of the object. -/
inductive FileErr
  | badXml
  | nullDeref
  | notFound (name : S)
  | object (e : Err)
  deriving DecidableEq

/-- parse.cxx:66-90 `parse_xml` on the text of the file, without the final cast: the first child of the
root with the name asked for. -/
def readFile (cs mname : S) : Except FileErr (Val D) :=
  match fileDoc cs with
  | none => .error .badXml
  | some [] => .error .nullDeref
  | some (root :: _) =>
    match root.kids.find? fun k => k.name = mname with
    | none => .error (.notFound mname)
    | some k => match getObject stod schema k with
      | .error e => .error (.object e)
      | .ok v => .ok v

end read

section write

variable {D : Type} (fmt : D → S)

/-- deparse.cxx:8-37 `deparse_to_string` with a top node. -/
def deparseIn (top name : S) (v : Val D) : S := printDoc [.elem top [] [toNode fmt name v]]

end write

end Neml.Xml
