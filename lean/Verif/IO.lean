import Verif.Network
import Verif.Dynamic

/-!
# `primo2/io.py`: XMLBIF files and dynamic network specifications

Modelled: the element trees that `XMLBIFParser.write` builds and `XMLBIFParser.parse` walks, the
table text, the order of the table, the calls on the network under construction, and the three
files of `DBNSpec` with the way their names are put together and looked up.

Not modelled: the bytes between an lxml tree and the tree lxml reads back (`Xml.load` says what
differs), the decimal notation of doubles (`FloatText`), JSON syntax, and errors of the operating
system other than a missing file.
-/

namespace Primo

/-! ## lxml -/

/-- An lxml element: tag, `.text` and child elements.  Attributes (`VERSION`, `TYPE`) are written but
never read; tails hold only the white space of `pretty_print`. -/
inductive Xml
  | el (tag : String) (text : Option String) (kids : List Xml)

namespace Xml

/-- `e.tag` -/
def tag : Xml → String
  | el t _ _ => t

/-- `e.text` -/
def text : Xml → Option String
  | el _ t _ => t

/-- `list(e)` -/
def kids : Xml → List Xml
  | el _ _ k => k

mutual
/-- `list(e.iter(t))`: `e` and its descendants with tag `t`, in document order -/
def iter (t : String) : Xml → List Xml
  | el tg tx ks => (if tg = t then [el tg tx ks] else []) ++ iterAll t ks
/-- the same for a list of elements -/
def iterAll (t : String) : List Xml → List Xml
  | [] => []
  | x :: xs => iter t x ++ iterAll t xs
end

/-- `e.findall("./t")` -/
def findall (e : Xml) (t : String) : List Xml := e.kids.filter fun k => k.tag = t

/-- `e.find("./t")` -/
def find (e : Xml) (t : String) : Option Xml := (e.findall t).head?

/-- `e.find(".//t")` -/
def findBelow (e : Xml) (t : String) : Option Xml := (iterAll t e.kids).head?

/-- Characters lxml accepts in text; others raise `ValueError` ("All strings must be XML
compatible").  Lean's `Char` has no surrogates. -/
def okChar (c : Char) : Bool :=
  !(c.toNat < 0x20 && c ≠ '\t' && c ≠ '\n' && c ≠ '\r') && c.toNat ≠ 0xFFFE && c.toNat ≠ 0xFFFF

/-- text that lxml accepts -/
def okText (s : String) : Bool := s.toList.all okChar

/-- `e = et.SubElement(_, t); e.text = s` -/
def leaf (t : String) (s : Option String) : Except PyErr Xml :=
  if (s.map okText).getD true then .ok (el t s []) else .error .valueError

mutual
/-- What `et.parse` returns for a file written by `et.tostring`: the same tree, except that empty
text comes back as `None` (`<NAME></NAME>` and `<NAME/>` are the same thing). -/
def load : Xml → Xml
  | el t s ks => el t (if s = some "" then none else s) (loadAll ks)
/-- the same for a list of elements -/
def loadAll : List Xml → List Xml
  | [] => []
  | x :: xs => load x :: loadAll xs
end

end Xml

/-! ## numbers and the table text -/

/-- Python's white space (`str.strip`), ASCII part -/
def pySpace (c : Char) : Bool :=
  c = ' ' || c = '\t' || c = '\n' || c = '\r' || c = '\x0b' || c = '\x0c'

/-- `s.strip()` -/
def pyStrip (s : String) : String :=
  String.ofList ((s.toList.dropWhile pySpace).reverse.dropWhile pySpace).reverse

/-- `s.split(c)` for a single character (`"".split(c) == [""]`) -/
def pySplit (c : Char) (s : String) : List String := (s.toList.splitOn c).map String.ofList

/-- `str` on numpy doubles and `float` on strings.  The only facts used: `float(str(x)) == x`
(shortest round-trip notation), and the notation is non-empty, has no white space and only characters
XML can hold. -/
structure FloatText where
  str : ℚ → String
  float : String → Except PyErr ℚ
  float_str : ∀ q, float (str q) = .ok q
  nonempty : ∀ q, (str q).toList ≠ []
  noSpace : ∀ q, ∀ c ∈ (str q).toList, pySpace c = false
  okChars : ∀ q, ∀ c ∈ (str q).toList, Xml.okChar c = true

namespace NDArray

/-- `np.reshape(a, np.size(a), "F")`: the entries, first axis fastest (`io.py:142`).  Reading the
reversed indices in C order is reading the indices in Fortran order. -/
def flattenF (a : NDArray) : List ℚ := (allIdx a.shape.reverse).map fun idx => a.get idx.reverse

/-- `np.reshape(np.array(l), shape, "F")`: `io.py:88`; `ValueError` if the sizes differ -/
def reshapeF (l : List ℚ) (shape : List Nat) : Except PyErr NDArray :=
  if l.length = shape.prod then
    .ok (tabulate shape fun idx => l.getD (ravel shape.reverse idx.reverse) 0)
  else .error .valueError

end NDArray

/-! ## networks with their XMLBIF attributes -/

/-- A `BayesianNetwork` with the attributes `name` and `meta` (`networks.py:33-34`) and the `meta`
lists of its node objects (`nodes.py:37`). -/
structure NetDoc where
  net : Net
  name : Option String
  info : List (Option String)
  nodeInfo : Nat → List (Option String)

/-- `BayesianNetwork()`: `networks.py:30-34` -/
def NetDoc.new : NetDoc := ⟨Net.empty, some "", [], fun _ => []⟩

/-- the state after a call that must not raise -/
def Res.toExcept (r : Res) : Except PyErr Net :=
  match r.2 with
  | none => .ok r.1
  | some e => .error e

namespace XMLBIF
open Xml

/-! ### write -/

/-- The `VARIABLE` element of node object `i`: `io.py:122-133`.  A utility node has no `values`. -/
def writeVar (d : NetDoc) (ignore : Bool) (i : Nat) : Except PyErr Xml := do
  let nm ← leaf "NAME" (some (d.net.heap i).name)
  if (d.net.heap i).kind = .utility then .error .attributeError else do
  let outs ← (d.net.heap i).values.mapM fun v => leaf "OUTCOME" (some v)
  let props ← if ignore then .ok [] else (d.nodeInfo i).mapM (leaf "PROPERTY")
  return el "VARIABLE" none (nm :: outs ++ props)

/-- the text of the `TABLE` element: `io.py:142` -/
def tableText (ft : FloatText) (a : NDArray) : String :=
  String.intercalate " " (a.flattenF.map ft.str)

/-- The `DEFINITION` element of node object `i`: `io.py:135-142`. -/
def writeDef (ft : FloatText) (d : NetDoc) (i : Nat) : Except PyErr Xml := do
  let fr ← leaf "FOR" (some (d.net.heap i).name)
  let given ← (d.net.heap i).parentOrder.reverse.mapM fun p => leaf "GIVEN" (some p)
  let table ← leaf "TABLE" (some (tableText ft (d.net.heap i).cpd))
  return el "DEFINITION" none (fr :: given ++ [table])

/-- `XMLBIFParser.write(bn, filename, ignoreProperties)`: `io.py:94-145`; the tree that is written
to the file. -/
def write (ft : FloatText) (ignore : Bool) (d : NetDoc) : Except PyErr Xml := do
  let nm ← leaf "NAME" d.name
  let props ← if ignore then .ok [] else d.info.mapM (leaf "PROPERTY")
  let body ← d.net.gnode.mapM fun p => do
    let v ← writeVar d ignore p.2
    let f ← writeDef ft d p.2
    return [v, f]
  return el "BIF" none [el "NETWORK" none (nm :: props ++ body.flatten)]

/-! ### parse -/

/-- `x.text` where `x` may be `None` (then `AttributeError`) -/
def textOf (x : Option Xml) : Except PyErr (Option String) :=
  match x with
  | none => .error .attributeError
  | some e => .ok e.text

/-- a name or outcome; `None` as a name or outcome is outside the model -/
def someText (t : Option String) : Except PyErr String :=
  match t with
  | none => .error .noneValue
  | some s => .ok s

/-- One round of the loop over `VARIABLE`: `io.py:62-71`. -/
def parseVar (ignore : Bool) (d : NetDoc) (var : Xml) : Except PyErr NetDoc := do
  let t ← textOf (var.find "NAME")
  let name ← someText t
  let values ← (var.findall "OUTCOME").mapM fun o => someText o.text
  let s ← (Net.addNode d.net.next (Net.create .discrete name values d.net).1).toExcept
  return { d with
    net := s
    nodeInfo := if ignore then d.nodeInfo
      else Function.update d.nodeInfo d.net.next ((var.findall "PROPERTY").map text) }

/-- a name given to `get_node` or `add_edge`; there is no node called `None` -/
def nodeText (t : Option String) : Except PyErr String :=
  match t with
  | none => .error .exception
  | some s => .ok s

/-- `bn.add_edge(given.text, curName)`: `io.py:79-81` -/
def parseGiven (cur : Name) (s : Net) (given : Xml) : Except PyErr Net := do
  let a ← nodeText given.text
  (Net.addEdge a cur s).toExcept

/-- the numbers of a `TABLE` element: `io.py:83` -/
def parseTable (ft : FloatText) (table : Option Xml) : Except PyErr (List ℚ) := do
  let t ← textOf table
  match t with
  | none => .error .attributeError
  | some s => (pySplit ' ' (pyStrip s)).mapM ft.float

/-- `shape`, `reshape` and `set_cpd`: `io.py:84-89` -/
def parseCpd (l : List ℚ) (i : Nat) (s : Net) : Except PyErr Net := do
  let dims ← (s.heap i).parentOrder.mapM (s.parentLen (s.heap i))
  let a ← NDArray.reshapeF l ((s.heap i).values.length :: dims)
  (Net.setCpd i a s).toExcept

/-- One round of the loop over `DEFINITION`: `io.py:73-89`. -/
def parseDef (ft : FloatText) (s : Net) (defn : Xml) : Except PyErr Net := do
  let t ← textOf (defn.find "FOR")
  let cur ← nodeText t
  let i ← s.getNode cur
  let s ← (defn.findall "GIVEN").reverse.foldlM (parseGiven cur) s
  let l ← parseTable ft (defn.find "TABLE")
  parseCpd l i s

/-- `XMLBIFParser.parse(filename, ignoreProperties)`: `io.py:34-91`; `root` is the tree lxml reads. -/
def parse (ft : FloatText) (ignore : Bool) (root : Xml) : Except PyErr NetDoc := do
  let name ← textOf (root.findBelow "NAME")
  let info := if ignore then []
    else ((root.findall "NETWORK").flatMap fun n => n.findall "PROPERTY").map text
  let d ← (root.iter "VARIABLE").foldlM (parseVar ignore) { NetDoc.new with name, info }
  let s ← (root.iter "DEFINITION").foldlM (parseDef ft) d.net
  return { d with net := s }

end XMLBIF

/-! ## files -/

/-- Names in transitions may be strings or node objects: `networks.py:269-275`. -/
inductive TNode
  | str (s : Name)
  | obj (name : Name)

/-- the name a transition end is compared by -/
def TNode.name : TNode → Name
  | .str s => s
  | .obj n => n

/-- the specification file: `io.py:247-251` -/
structure Conf where
  b0 : String
  tbn : String
  transitions : List (Name × Name)

/-- contents of a file: an XMLBIF document, a specification, or something neither parser accepts -/
inductive File
  | xml (x : Xml)
  | conf (c : Conf)
  | junk

/-- Files by the components of their absolute path, the directories all existing and without
symbolic links. -/
abbrev FileSys := List String → Option File

namespace Path

/-- `os.path.isabs(p)` (posix) -/
def isAbs (p : String) : Bool := p.toList.head? = some '/'

/-- one path component: empty components and `.` stay, `..` goes up -/
def walk (dir : List String) (c : String) : List String :=
  if c = "" ∨ c = "." then dir else if c = ".." then dir.dropLast else dir ++ [c]

/-- the file a path stands for when the working directory is `cwd` -/
def resolve (cwd : List String) (p : String) : List String :=
  (pySplit '/' p).foldl walk (if isAbs p then [] else cwd)

/-- `os.path.abspath(p)`: the normalised absolute path (`posixpath.abspath`; a leading `//` would be
kept, but opens the same files) -/
def abspath (cwd : List String) (p : String) : String :=
  "/" ++ String.intercalate "/" (resolve cwd p)

/-- `os.path.dirname(p)`: `posixpath.dirname` -/
def dirname (p : String) : String :=
  let head := (p.toList.reverse.dropWhile (· ≠ '/')).reverse
  if head.all (· = '/') then String.ofList head
  else String.ofList (head.reverse.dropWhile (· = '/')).reverse

end Path

/-- `DynamicBayesianNetwork` with XMLBIF attributes -/
structure DynDoc where
  b0 : NetDoc
  twoTbn : NetDoc
  transitions : List (TNode × TNode)

namespace DBNSpec
open Path

/-- `open(p)` and read -/
def readFile (fs : FileSys) (cwd : List String) (p : String) : Except PyErr File :=
  match fs (resolve cwd p) with
  | none => .error .osError
  | some f => .ok f

/-- `XMLBIFParser.parse(p, ignoreProperties)` -/
def readNet (ft : FloatText) (ignore : Bool) (fs : FileSys) (cwd : List String) (p : String) :
    Except PyErr NetDoc := do
  let f ← readFile fs cwd p
  match f with
  | .xml x => XMLBIF.parse ft ignore x.load
  | _ => .error .syntaxError

/-- the path of a referenced network: `io.py:191-202` -/
def refPath (base ref : String) : String := if isAbs ref then ref else base ++ "/" ++ ref

/-- `dbn.add_transition(t[0], t[1])` for the transitions of the file: `io.py:203-205` -/
def addTransitions (d : DynDoc) (ts : List (Name × Name)) : Except PyErr DynDoc :=
  match (DBN.addTransitions ⟨d.b0.net.view, d.twoTbn.net.view, []⟩ ts).2 with
  | none => .ok { d with transitions := d.transitions ++ ts.map fun t => (.str t.1, .str t.2) }
  | some e => .error e

/-- `DBNSpec.parse(filename, ignoreProperties)`: `io.py:151-206` -/
def parse (ft : FloatText) (ignore : Bool) (fs : FileSys) (cwd : List String) (filename : String) :
    Except PyErr DynDoc := do
  let f ← readFile fs cwd filename
  match f with
  | .conf c => do
    let base := dirname (abspath cwd filename)
    let b0 ← readNet ft ignore fs cwd (refPath base c.b0)
    let tbn ← readNet ft ignore fs cwd (refPath base c.tbn)
    addTransitions ⟨b0, tbn, []⟩ c.transitions
  | _ => .error .syntaxError

/-- `json.dump` accepts strings, not node objects. -/
def jsonName : TNode → Except PyErr Name
  | .str s => .ok s
  | .obj _ => .error .typeError

/-- `json.dump(dbn.transitions)` -/
def jsonTransitions (ts : List (TNode × TNode)) : Except PyErr (List (Name × Name)) :=
  ts.mapM fun t => do
    let a ← jsonName t.1
    let b ← jsonName t.2
    return (a, b)

/-- `XMLBIFParser.write(bn, p, ignoreProperties)` -/
def writeNet (ft : FloatText) (ignore : Bool) (d : NetDoc) (cwd : List String) (p : String)
    (fs : FileSys) : FileSys × Option PyErr :=
  match XMLBIF.write ft ignore d with
  | .error e => (fs, some e)
  | .ok x => (Function.update fs (resolve cwd p) (some (.xml x)), none)

/-- Writing the specification: `io.py:262-264`.  If `json.dump` raises, the file it has begun is left
behind. -/
def writeConf (d : DynDoc) (name : String) (cwd : List String) (p : String) (fs : FileSys) :
    FileSys × Option PyErr :=
  match jsonTransitions d.transitions with
  | .error e => (Function.update fs (resolve cwd p) (some .junk), some e)
  | .ok ts => (Function.update fs (resolve cwd p)
      (some (.conf ⟨name ++ "-b0.xbif", name ++ "-2tbn.xbif", ts⟩)), none)

/-- `DBNSpec.write(dbn, path, name, ignoreProperties)`: `io.py:210-264` -/
def write (ft : FloatText) (ignore : Bool) (d : DynDoc) (cwd : List String) (path name : String)
    (fs : FileSys) : FileSys × Option PyErr :=
  match writeNet ft ignore d.b0 cwd (path ++ name ++ "-b0.xbif") fs with
  | (fs, some e) => (fs, some e)
  | (fs, none) =>
    match writeNet ft ignore d.twoTbn cwd (path ++ name ++ "-2tbn.xbif") fs with
    | (fs, some e) => (fs, some e)
    | (fs, none) => writeConf d name cwd (path ++ name ++ ".conf") fs

end DBNSpec
end Primo
