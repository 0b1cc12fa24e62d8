import Verif.Emitter
import Verif.Document

/-
Dumping a document.  Models: /repo/src/document.rs lines 571-726.

`dump` consumes the document; the node table is threaded through because `dump_node` takes each
node out of it (`core::mem::take`) when it is first serialised.  Node ids are natural numbers.
-/

namespace Yaml
namespace Document
open Emitter

/-- `Node::default()`, document.rs lines 29-47: what `core::mem::take` leaves behind. -/
def emptyNode : Node := ⟨.noNode, none, Mark.zero, Mark.zero⟩

/-- `anchor_node_sub` on each of the given nodes. -/
def anchorSubs : List Nat → EmitB Unit
  | [] => pure ()
  | i :: is => do anchorNodeSub i; anchorSubs is

/-- The children of a node in order (key before value). -/
def children : NodeData → List Nat
  | .sequence items _ => items
  | .mapping pairs _ => pairs.flatMap fun p => [p.1, p.2]
  | _ => []

/-- `anchor_node`, document.rs lines 602-624 (not recursive, as in the code). -/
def anchorNode (nodes : List Node) (index : Nat) : EmitB Unit := do
  match nodes[index - 1]?, (← getBook).anchors[index - 1]? with
  | some node, some a => do
    modifyBook fun s => { s with
      anchors := s.anchors.set (index - 1) { a with references := a.references + 1 } }
    if a.references + 1 = 1 then anchorSubs (children node.data)
    else if a.references + 1 = 2 then
      modifyBook fun s => { s with
        lastAnchorId := s.lastAnchorId + 1
        anchors := s.anchors.set (index - 1)
          { a with references := a.references + 1, anchor := s.lastAnchorId + 1 } }
    else pure ()
  | _, _ => M.panic .nodeIndex

/-- Run `f` over the items, threading the node table (the `for` loops of lines 691-693, 720-723). -/
def dumpItems (f : List Node → Nat → EmitB (List Node)) : List Nat → List Node → EmitB (List Node)
  | [], nodes => pure nodes
  | i :: is, nodes => do
    let nodes ← f nodes i
    dumpItems f is nodes

/-- `dump_node` with `dump_alias`, `dump_scalar`, `dump_sequence` and `dump_mapping`,
document.rs lines 626-726.  `F` bounds the depth of the recursion. -/
def dumpNode : Nat → List Node → Nat → EmitB (List Node)
  | 0, _, _ => M.outOfFuel
  | F + 1, nodes, index => do
    if index = 0 then M.panic .dumpIndexZero
    else
      match nodes[index - 1]?, (← getBook).anchors[index - 1]? with
      | some node, some a =>
        let anchor := if a.anchor ≠ 0 then some (generateAnchor a.anchor) else none
        if a.serialized then
          match anchor with
          | none => M.panic .dumpAliasNoAnchor
          | some anchor => do
            lift <| emit (Event.new (.alias anchor))
            pure nodes
        else do
          modifyBook fun s => { s with anchors := s.anchors.set (index - 1) { a with serialized := true } }
          let nodes := nodes.set (index - 1) emptyNode
          match node.data with
          | .scalar value style => do
            let implicit := node.tag == some strTag
            lift <| emit (Event.new (.scalar anchor node.tag value implicit implicit style))
            pure nodes
          | .sequence items style => do
            lift <| emit (Event.new (.sequenceStart anchor node.tag (node.tag == some seqTag) style))
            let nodes ← dumpItems (dumpNode F) items nodes
            lift <| emit (Event.new .sequenceEnd)
            pure nodes
          | .mapping pairs style => do
            lift <| emit (Event.new (.mappingStart anchor node.tag (node.tag == some mapTag) style))
            let nodes ← dumpItems (dumpNode F) (children (.mapping pairs style)) nodes
            lift <| emit (Event.new .mappingEnd)
            pure nodes
          | .noNode => M.panic .dumpNoNode
      | _, _ => M.panic .nodeIndex

/-- `dump`, document.rs lines 571-600. -/
def dump (d : Document) : EmitB Unit := do
  let s ← getBook
  M.when (!s.opened) (do
    match ← M.catchErr open_ with
    | .ok _ => pure ()
    | .error e => do
      resetAnchors
      M.throw e)
  if d.nodes.isEmpty then close
  else do
    let s ← getBook
    if !s.opened then M.panic .dumpNotOpened
    else do
      modifyBook fun s => { s with anchors := List.replicate d.nodes.length {} }
      lift <| emit (Event.new (.documentStart d.versionDirective d.tagDirectives d.startImplicit))
      anchorNode d.nodes 1
      let _ ← dumpNode (d.nodes.length + 1) d.nodes 1
      lift <| emit (Event.new (.documentEnd d.endImplicit))
  resetAnchors

end Document
end Yaml
