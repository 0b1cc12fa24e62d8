import Verif.Parser

/-
Documents: the node table, the building API and the loader.
Models: /repo/src/document.rs lines 1-565 (the dumper is in `Dumper.lean`).

Node ids (`i32`) stored in a document are natural numbers; arguments of the public functions are
integers.  Sizes are unbounded (`self.nodes.len() as i32` does not wrap).
-/

namespace Yaml

/-- `NodeData`, document.rs lines 43-70 (pairs are `NodePair { key, value }`, lines 75-83). -/
inductive NodeData where
  | noNode
  | scalar (value : Str) (style : ScalarStyle)
  | sequence (items : List Nat) (style : CollStyle)
  | mapping (pairs : List (Nat × Nat)) (style : CollStyle)
deriving DecidableEq, Repr

/-- `Node`, document.rs lines 29-41. -/
structure Node where
  data : NodeData
  tag : Option Str
  startMark : Mark
  endMark : Mark
deriving DecidableEq, Repr

/-- `Document`, document.rs lines 9-27. -/
structure Document where
  nodes : List Node
  versionDirective : Option VersionDirective
  tagDirectives : List TagDirective
  startImplicit : Bool
  endImplicit : Bool
  startMark : Mark
  endMark : Mark
deriving DecidableEq, Repr

namespace Document

/-- `Document::new`, document.rs lines 87-105. -/
def new (version : Option VersionDirective) (tags : List TagDirective) (startImplicit endImplicit : Bool) :
    Document :=
  ⟨[], version, tags, startImplicit, endImplicit, Mark.zero, Mark.zero⟩

/-- `get_node` / `get_node_mut`, document.rs lines 110-119: `self.nodes.get(index as usize - 1)`.
A negative `index` becomes a huge `usize`; for 0 the subtraction underflows, which panics when
overflow checks are on and yields `None` otherwise. -/
def getNode (overflowChecks : Bool) (d : Document) (index : Int) : Out (Option Node) :=
  if index = 0 then
    if overflowChecks then .panic .indexUnderflow else .ok none
  else if index < 0 then .ok none
  else .ok d.nodes[index.toNat - 1]?

/-- `get_root_node`, document.rs lines 128-130. -/
def getRootNode (d : Document) : Option Node := d.nodes[0]?

/-- `self.nodes.push(node); self.nodes.len() as i32`. -/
def pushNode (d : Document) (n : Node) : Int × Document :=
  (d.nodes.length + 1, { d with nodes := d.nodes ++ [n] })

/-- `add_scalar`, document.rs lines 138-158. -/
def addScalar (d : Document) (tag : Option Str) (value : Str) (style : ScalarStyle) : Int × Document :=
  d.pushNode ⟨.scalar value style, some (tag.getD strTag), Mark.zero, Mark.zero⟩

/-- `add_sequence`, document.rs lines 166-184. -/
def addSequence (d : Document) (tag : Option Str) (style : CollStyle) : Int × Document :=
  d.pushNode ⟨.sequence [] style, some (tag.getD seqTag), Mark.zero, Mark.zero⟩

/-- `add_mapping`, document.rs lines 192-211. -/
def addMapping (d : Document) (tag : Option Str) (style : CollStyle) : Int × Document :=
  d.pushNode ⟨.mapping [] style, some (tag.getD mapTag), Mark.zero, Mark.zero⟩

/-- The range assertion `x > 0 && x as usize - 1 < self.nodes.len()`. -/
def inRange (d : Document) (x : Int) : Bool := decide (x > 0) && decide (x.toNat - 1 < d.nodes.length)

/-- Change the data of the node with the given id. -/
def modifyData (d : Document) (id : Nat) (f : NodeData → NodeData) : Document :=
  { d with nodes := d.nodes.modify (id - 1) fun n => { n with data := f n.data } }

/-- `append_sequence_item`, document.rs lines 214-224. -/
def appendSequenceItem (d : Document) (sequence item : Int) : Out Unit × Document :=
  if !d.inRange sequence then (.panic .appendItemAssert, d)
  else match d.nodes[sequence.toNat - 1]? with
    | some ⟨.sequence items style, _, _, _⟩ =>
      if !d.inRange item then (.panic .appendItemAssert, d)
      else (.ok (), d.modifyData sequence.toNat fun _ => .sequence (items ++ [item.toNat]) style)
    | _ => (.panic .appendItemAssert, d)

/-- `yaml_document_append_mapping_pair`, document.rs lines 227-239. -/
def appendMappingPair (d : Document) (mapping key value : Int) : Out Unit × Document :=
  if !d.inRange mapping then (.panic .appendPairAssert, d)
  else match d.nodes[mapping.toNat - 1]? with
    | some ⟨.mapping pairs style, _, _, _⟩ =>
      if !(d.inRange key && d.inRange value) then (.panic .appendPairAssert, d)
      else (.ok (), d.modifyData mapping.toNat fun _ => .mapping (pairs ++ [(key.toNat, value.toNat)]) style)
    | _ => (.panic .appendPairAssert, d)

/-! ### Loading -/

/-- `Error::composer`, error.rs lines 103-115. -/
def composerError {α : Type} (context : String) (contextMark : Mark) (problem : String)
    (problemMark : Mark) : Pars α := M.throw (.composer context contextMark problem problemMark)

/-- `register_anchor`, document.rs lines 356-383. -/
def registerAnchor (d : Document) (index : Nat) (anchor : Option Str) : Pars Unit := do
  match anchor with
  | none => pure ()
  | some anchor =>
    match d.nodes[index - 1]? with
    | none => M.panic .nodeIndex
    | some node => do
      match (← M.get).aliases.find? (fun a => a.anchor == anchor) with
      | some a =>
        composerError "found duplicate anchor; first occurrence" a.mark "second occurrence"
          node.startMark
      | none =>
        M.modify fun p => { p with aliases := p.aliases ++ [⟨anchor, index, node.startMark⟩] }

/-- Adding a child to the pairs of a mapping, document.rs lines 396-406: complete the last pair
if it has no value yet (value 0), else start a new pair. -/
def addToPairs : List (Nat × Nat) → Nat → List (Nat × Nat)
  | [], index => [(index, 0)]
  | [(k, v)], index => if v = 0 then [(k, index)] else [(k, v), (index, 0)]
  | p :: q :: r, index => p :: addToPairs (q :: r) index

/-- `load_node_add`, document.rs lines 385-412; `ctx` is the stack of open collections, top
first. -/
def loadNodeAdd (d : Document) (ctx : List Nat) (index : Nat) : Pars Document := do
  match ctx with
  | [] => pure d
  | parent :: _ =>
    match d.nodes[parent - 1]? with
    | none => M.panic .nodeIndex
    | some node =>
      match node.data with
      | .sequence items style => pure (d.modifyData parent fun _ => .sequence (items ++ [index]) style)
      | .mapping pairs style => pure (d.modifyData parent fun _ => .mapping (addToPairs pairs index) style)
      | _ => M.panic .loadBadParent

/-- `load_alias`, document.rs lines 414-432. -/
def loadAlias (d : Document) (ctx : List Nat) (anchor : Str) (startMark : Mark) : Pars Document := do
  match (← M.get).aliases.find? (fun a => a.anchor == anchor) with
  | some a => loadNodeAdd d ctx a.index
  | none => composerError "" Mark.zero "found undefined alias" startMark

/-- `if tag.is_none() || tag == "!" { tag = default }`, document.rs lines 446-448, 479-481, 533-535. -/
def loadTag (tag : Option Str) (default : Str) : Option Str :=
  if tag.isNone || tag == some (cs! "!") then some default else tag

/-- Push a node, register its anchor and attach it to its parent: the common part of
`load_scalar` (434-459), `load_sequence` (461-499) and `load_mapping` (515-551). -/
def loadNode (d : Document) (ctx : List Nat) (node : Node) (anchor : Option Str) :
    Pars (Document × Nat) := do
  let d := { d with nodes := d.nodes ++ [node] }
  let index := d.nodes.length
  registerAnchor d index anchor
  let d ← loadNodeAdd d ctx index
  pure (d, index)

/-- `load_sequence_end` (501-513) and `load_mapping_end` (553-565): check the node on top of the
stack, set its end mark, pop. -/
def loadEnd (d : Document) (ctx : List Nat) (isSeq : Bool) (endMark : Mark) :
    Pars (Document × List Nat) := do
  match ctx with
  | [] => M.panic .loadBadEnd
  | index :: ctx =>
    match d.nodes[index - 1]? with
    | none => M.panic .nodeIndex
    | some node =>
      let good := match node.data with
        | .sequence _ _ => isSeq
        | .mapping _ _ => !isSeq
        | _ => false
      if good then
        pure ({ d with nodes := d.nodes.modify (index - 1) fun n => { n with endMark := endMark } }, ctx)
      else M.panic .loadBadEnd

/-- One pass of the loop of `load_nodes`, document.rs lines 320-350, on the event just parsed:
`inl` continues with the new document and stack, `inr` is `DocumentEnd`. -/
def loadStep (d : Document) (ctx : List Nat) (event : Event) :
    Pars ((Document × List Nat) ⊕ Document) := do
  match event.data with
  | .streamStart _ => M.panic .loadUnexpectedEvent
  | .streamEnd => M.panic .loadUnexpectedEvent
  | .documentStart _ _ _ => M.panic .loadUnexpectedEvent
  | .documentEnd implicit => pure (.inr { d with endImplicit := implicit, endMark := event.endMark })
  | .alias anchor => do
    let d ← loadAlias d ctx anchor event.startMark
    pure (.inl (d, ctx))
  | .scalar anchor tag value _ _ style => do
    let (d, _) ← loadNode d ctx ⟨.scalar value style, loadTag tag strTag, event.startMark, event.endMark⟩ anchor
    pure (.inl (d, ctx))
  | .sequenceStart anchor tag _ style => do
    let (d, index) ← loadNode d ctx ⟨.sequence [] style, loadTag tag seqTag, event.startMark, event.endMark⟩ anchor
    pure (.inl (d, index :: ctx))
  | .sequenceEnd => do
    let r ← loadEnd d ctx true event.endMark
    pure (.inl r)
  | .mappingStart anchor tag _ style => do
    let (d, index) ← loadNode d ctx ⟨.mapping [] style, loadTag tag mapTag, event.startMark, event.endMark⟩ anchor
    pure (.inl (d, index :: ctx))
  | .mappingEnd => do
    let r ← loadEnd d ctx false event.endMark
    pure (.inl r)

/-- `load_nodes`, document.rs lines 316-354. -/
def loadNodes (F : Nat) (d : Document) : Pars Document :=
  M.loop F (fun ((d, ctx) : Document × List Nat) => do
    let event ← Parser.parse F
    loadStep d ctx event) (d, [])

/-- `load_document`, document.rs lines 292-314. -/
def loadDocument (F : Nat) (d : Document) (event : Event) : Pars Document := do
  match event.data with
  | .documentStart version tags implicit =>
    loadNodes F { d with versionDirective := version, tagDirectives := tags,
                         startImplicit := implicit, startMark := event.startMark }
  | _ => M.panic .loadNoDocumentStart

/-- `parser.inner.delete_aliases()`, parser.rs lines 1019-1021. -/
def deleteAliases : Pars Unit := M.modify fun p => { p with aliases := [] }

/-- Run `m`; on `Err` delete the aliases and return the error (document.rs lines 262-265, 283-289). -/
def cleaningErr {α : Type} (m : Pars α) : Pars α := do
  match ← M.catchErr m with
  | .ok a => pure a
  | .error e => do
    deleteAliases
    M.throw e

/-- `Document::load`, document.rs lines 251-290. -/
def load (F : Nat) : Pars Document := do
  let document := Document.new none [] false false
  let started ← (M.prim TokOp.streamStarted : Pars Bool)
  M.when (!started) (do
    let event ← cleaningErr (Parser.parse F)
    match event.data with
    | .streamStart _ => pure ()
    | _ => M.panic .loadNoStreamStart)
  let ended ← (M.prim TokOp.streamEnded : Pars Bool)
  if ended then pure document
  else do
    let event ← cleaningErr (Parser.parse F)
    match event.data with
    | .streamEnd => pure document
    | _ => do
      let d ← cleaningErr (loadDocument F document event)
      deleteAliases
      pure d

end Document
end Yaml
