import Verif.Model.Text
import Verif.Model.EGraph
/-
Model of the Graphviz output, `src/dot.rs`.  A document is written line by line; the lines are kept
as data (`DotLine`) and turned into text by `DotLine.text`.

Not modelled: writing the text to a file or to the standard input of the `dot` program
(`src/dot.rs:69-148`), and what that program does with it.
-/
namespace Egg
variable {Op D : Type} [DecidableEq Op] [Lang Op]

/-- The part of a `Dot` besides the e-graph: `config` and `use_anchors`, `src/dot.rs:53-60`. -/
structure DotCfg where
  config : List (List Char)
  useAnchors : Bool

/-- `EGraph::dot`, `src/egraph.rs:580-588`. -/
def DotCfg.default : DotCfg := ⟨[], true⟩

/-- `Dot::with_config_line`, `src/dot.rs:76-79`. -/
def DotCfg.withConfigLine (d : DotCfg) (line : List Char) : DotCfg := { d with config := d.config ++ [line] }

/-- `Dot::with_anchors`, `src/dot.rs:82-85`. -/
def DotCfg.withAnchors (d : DotCfg) (b : Bool) : DotCfg := { d with useAnchors := b }

/-- The first component of the result of `Dot::edge`: the empty text, `:sw`, `:s` or `:se`. -/
inductive Anchor where
  | none | sw | s | se
  deriving DecidableEq, Repr

/-- `Dot::edge`, `src/dot.rs:151-167`.  The second component is the label: `none` the empty text and
`some i` the text `label=i`. -/
def DotCfg.edge (d : DotCfg) (i len : Nat) : Res (Anchor × Option Nat) :=
  if i < len then
    if !d.useAnchors then .ok (.none, some i)
    else
      match len, i with
      | 1, 0 => .ok (.none, none)
      | 2, 0 => .ok (.sw, none)
      | 2, 1 => .ok (.se, none)
      | 3, 0 => .ok (.sw, none)
      | 3, 1 => .ok (.s, none)
      | 3, 2 => .ok (.se, none)
      | _, _ => .ok (.none, some i)
  else .error .panic

/-- Lines of the output after the configuration lines.  `node c i l` and the two kinds of edges speak about
the dot node `c.i`, the `i`-th e-node of the class `c`. -/
inductive DotLine where
  /-- `subgraph cluster_c {` -/
  | cluster (c : Id)
  | style
  /-- `c.i[label = "l"]` -/
  | node (c : Id) (i : Nat) (label : List Char)
  /-- `}` after the nodes of a cluster -/
  | close
  /-- `c.i -> c.i:n [lhead = cluster_c, ..]` -/
  | loop (c : Id) (i : Nat) (anchor : Anchor) (label : Option Nat)
  /-- `c.i -> child.0 [lhead = cluster_leader, ..]` -/
  | edge (c : Id) (i : Nat) (anchor : Anchor) (child leader : Id) (label : Option Nat)
  deriving DecidableEq, Repr

/-- The anchors returned by `Dot::edge`, as text. -/
def Anchor.text : Anchor → List Char
  | .none => []
  | .sw => ":sw".toList
  | .s => ":s".toList
  | .se => ":se".toList

/-- The labels returned by `Dot::edge`, as text: `format!("label={}", i)`. -/
def dotLabel : Option Nat → List Char
  | none => []
  | some i => "label=".toList ++ showNat i

/-- `"  subgraph cluster_{} {{"`, `src/dot.rs:194`. -/
def clusterText (c : Id) : List Char := "  subgraph cluster_".toList ++ (showNat c ++ " {".toList)

/-- `"    style=dotted"`, `src/dot.rs:195`. -/
def styleText : List Char := "    style=dotted".toList

/-- `"    {}.{}[label = \"{}\"]"`, `src/dot.rs:197`. -/
def nodeText (c : Id) (i : Nat) (l : List Char) : List Char :=
  "    ".toList ++ (showNat c ++ ('.' :: (showNat i ++ ("[label = \"".toList ++ (l ++ "\"]".toList)))))

/-- `"  }}"`, `src/dot.rs:199`. -/
def closeText : List Char := "  }".toList

/-- `"  {}.{}{} -> {}.{}:n [lhead = cluster_{}, {}]"`, `src/dot.rs:211-216`. -/
def loopText (c : Id) (i : Nat) (a : Anchor) (l : Option Nat) : List Char :=
  "  ".toList ++ (showNat c ++ ('.' :: (showNat i ++ (a.text ++ (" -> ".toList ++
    (showNat c ++ ('.' :: (showNat i ++ (":n [lhead = cluster_".toList ++ (showNat c ++ (", ".toList ++ (dotLabel l ++ "]".toList))))))))))))

/-- `"  {}.{}{} -> {}.0 [lhead = cluster_{}, {}]"`, `src/dot.rs:218-223`. -/
def edgeText (c : Id) (i : Nat) (a : Anchor) (child leader : Id) (l : Option Nat) : List Char :=
  "  ".toList ++ (showNat c ++ ('.' :: (showNat i ++ (a.text ++ (" -> ".toList ++
    (showNat child ++ (".0 [lhead = cluster_".toList ++ (showNat leader ++ (", ".toList ++ (dotLabel l ++ "]".toList))))))))))

/-- A line as text, without the newline. -/
def DotLine.text : DotLine → List Char
  | .cluster c => clusterText c
  | .style => styleText
  | .node c i l => nodeText c i l
  | .close => closeText
  | .loop c i a l => loopText c i a l
  | .edge c i a child leader l => edgeText c i a child leader l

/-- The lines of one cluster, `src/dot.rs:193-200`. -/
def dotCluster (T : OpText Op) (k : EClass Op D) : List DotLine :=
  .cluster k.id :: .style :: (k.nodes.zipIdx.map (fun (n, i) => .node k.id i (T.show_ n.op)) ++ [.close])

/-- The closure given to `try_for_each`, `src/dot.rs:204-227`, for the arguments from position `argI` on. -/
def dotArgs (d : DotCfg) (eg : EGraph Op D) (c : Id) (i len : Nat) : Nat → List Id → Res (List DotLine)
  | _, [] => .ok []
  | argI, child :: rest => do
    let (anchor, label) ← d.edge argI len
    let leader ← eg.find child
    let line := if leader = c then DotLine.loop c i anchor label else .edge c i anchor child leader label
    let ls ← dotArgs d eg c i len (argI + 1) rest
    pure (line :: ls)

/-- The loop over the e-nodes of one class, `src/dot.rs:203-228`, from position `i` on. -/
def dotEdges (d : DotCfg) (eg : EGraph Op D) (c : Id) : Nat → List (ENode Op) → Res (List DotLine)
  | _, [] => .ok []
  | i, n :: ns => do
    let l ← dotArgs d eg c i n.children.length 0 n.children
    let ls ← dotEdges d eg c (i + 1) ns
    pure (l ++ ls)

/-- The second loop over the classes, `src/dot.rs:202-229`. -/
def dotAllEdges (d : DotCfg) (eg : EGraph Op D) : List (EClass Op D) → Res (List DotLine)
  | [] => .ok []
  | k :: ks => do
    let l ← dotEdges d eg k.id 0 k.nodes
    let ls ← dotAllEdges d eg ks
    pure (l ++ ls)

/-- The lines written by the two loops of `Dot::fmt`, `src/dot.rs:192-229`.  `ks` is the list of the classes in the order
in which the hash map of classes is iterated, which is the same in both loops as the e-graph is not changed in between. -/
def dotLines (T : OpText Op) (d : DotCfg) (eg : EGraph Op D) (ks : List (EClass Op D)) : Res (List DotLine) := do
  let es ← dotAllEdges d eg ks
  pure (ks.flatMap (dotCluster T) ++ es)

/-- `writeln!` of several lines. -/
def writeLines (ls : List (List Char)) : List Char := ls.flatMap (fun l => l ++ ['\n'])

/-- `Display for Dot`, `src/dot.rs:176-233`. -/
def dotText (T : OpText Op) (d : DotCfg) (eg : EGraph Op D) (ks : List (EClass Op D)) : Res (List Char) := do
  let ls ← dotLines T d eg ks
  pure (writeLines ["digraph egraph {".toList, "  compound=true".toList, "  clusterrank=local".toList] ++
    writeLines (d.config.map ("  ".toList ++ ·)) ++ writeLines (ls.map DotLine.text) ++ "}".toList)

end Egg
