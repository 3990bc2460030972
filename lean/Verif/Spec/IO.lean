import Verif.IO
import Verif.Spec.NetState

/-!
# Specification vocabulary: what a file stores, and where
-/

namespace Primo

/-- what an XMLBIF file can say about a node -/
structure NodeRec where
  name : Name
  values : List Val
  parentOrder : List Name
  cpd : NDArray
  info : List (Option String)
  deriving DecidableEq

namespace NetDoc

/-- the nodes of a network in the order of `get_all_nodes` -/
def nodes (d : NetDoc) : List NodeRec :=
  d.net.gnode.map fun p => ⟨(d.net.heap p.2).name, (d.net.heap p.2).values,
    (d.net.heap p.2).parentOrder, (d.net.heap p.2).cpd, d.nodeInfo p.2⟩

/-- every node is a chance node and has outcomes -/
def Chance (d : NetDoc) : Prop := ∀ k i, d.net.getNode k = .ok i →
  (d.net.heap i).kind = .discrete ∧ (d.net.heap i).values ≠ []

end NetDoc

/-- The character may occur in an XML document. -/
def XmlChar (c : Char) : Prop :=
  (0x20 ≤ c.toNat ∨ c = '\t' ∨ c = '\n' ∨ c = '\r') ∧ c.toNat ≠ 0xFFFE ∧ c.toNat ≠ 0xFFFF

/-- The text may occur in an XML document. -/
def XmlText (s : String) : Prop := ∀ c ∈ s.toList, XmlChar c

/-- An XML file can hold this string and tell it from no string. -/
def Storable (s : String) : Prop := s ≠ "" ∧ XmlText s

/-- what is left of a text in a file: empty text is no text -/
def blank (t : Option String) : Option String := if t = some "" then none else t

/-- names and outcomes are non-empty XML text; network name and properties are XML text or missing -/
structure NetDoc.Storable (d : NetDoc) : Prop where
  name : ∀ t, d.name = some t → XmlText t
  info : ∀ t, some t ∈ d.info → XmlText t
  nodes : ∀ r ∈ d.nodes, Primo.Storable r.name ∧ (∀ v ∈ r.values, Primo.Storable v) ∧
    ∀ t, some t ∈ r.info → XmlText t

/-- `d'` is `d` as it comes back from a file with (`keep`) or without the properties: the same nodes
in the same order with the same outcomes, parent orders and tables, in a coherent network of chance
nodes with valid tables; the same name and properties up to empty texts. -/
structure NetDoc.Back (keep : Bool) (d d' : NetDoc) : Prop where
  name : d'.name = blank d.name
  info : d'.info = if keep then d.info.map blank else []
  nodes : d'.nodes = d.nodes.map fun r => { r with info := if keep then r.info.map blank else [] }
  coherent : d'.net.Coherent
  chance : d'.Chance
  valid : ∀ k i, d'.net.getNode k = .ok i → (d'.net.heap i).valid = true

/-- Position of an entry in a table in which the first index varies fastest, then the second, …:
`i₀ + n₀ (i₁ + n₁ (i₂ + …))`. -/
def tablePos : List Nat → List Nat → Nat
  | n :: s, i :: is => i + n * tablePos s is
  | _, _ => 0

/-- the names in the `GIVEN` elements of a definition, in document order -/
def Xml.given (x : Xml) : List (Option String) := (x.findall "GIVEN").map Xml.text

/-- a normalised absolute directory: no empty components, no `.`, no `..`, no slashes inside -/
def NormalDir (l : List String) : Prop :=
  ∀ c ∈ l, c ≠ "" ∧ c ≠ "." ∧ c ≠ ".." ∧ '/' ∉ c.toList

/-- a path to a folder, as a prefix for file names: empty or with a final slash -/
def FolderPrefix (path : String) : Prop := path = "" ∨ ∃ q, path = q ++ "/"

/-- a name that does not lead to another folder -/
def PlainName (name : String) : Prop := '/' ∉ name.toList

/-- The transitions are given by name and fit the networks. -/
def DynDoc.TransitionsOk (d : DynDoc) : Prop := ∀ t ∈ d.transitions, ∃ a b, t = (.str a, .str b) ∧
  b ∈ d.b0.net.lookup.keys ∧ b ∈ d.twoTbn.net.lookup.keys ∧ a ∈ d.twoTbn.net.lookup.keys

end Primo
