import Verif.Model.Monitor

/-
The propagation panel of the dashboard.

Source (read as text, /repo): `tooling/event-monitor/web/propagation.js`, `createPropagation` 59-340.

Simplified: positions, colours and fading are left out; a dot is the delay that it stands for.  Numbers are whole, and
slots are not negative.
-/

namespace Verif.Monitor

open Verif

/-- `MAX_IDS_PER_TOPIC` (12). -/
def maxIds : Nat := 400

/-- One entry of a group (119): the slot, the earliest arrival per node, and the earliest arrival (`Infinity` is
`none`). -/
structure Entry where
  slot : Nat
  arrivals : Nat → Option Int
  first : Option Int

/-- The state of the panel (61-74): the nodes of `meta`, the groups, the ids in the order first seen, the newest slot,
the number of slots shown. -/
structure Chart where
  nodes : List Nat
  group : Node.Topic → Nat → Option Entry
  order : Node.Topic → List Nat
  maxSlot : Nat
  window : Nat

def Chart.init (nodes : List Nat) (window : Nat) : Chart := ⟨nodes, fun _ _ => none, fun _ => [], 0, window⟩

/-- The earliest arrival is kept (127-135). -/
def Entry.see (x : Entry) (e : Ev) : Entry :=
  { x with
    arrivals := match x.arrivals e.node with
      | none => Function.update x.arrivals e.node (some e.arrival)
      | some a => if e.arrival < a then Function.update x.arrivals e.node (some e.arrival) else x.arrivals
    first := match x.first with
      | none => some e.arrival
      | some m => if e.arrival < m then some e.arrival else some m }

/-- A new id (117-126): it is added, and beyond the limit the oldest id is dropped. -/
def Chart.open_ (c : Chart) (t : Node.Topic) (id slot : Nat) : Chart :=
  let c1 := { c with group := Function.update c.group t (Function.update (c.group t) id (some ⟨slot, fun _ => none, none⟩)),
                     order := Function.update c.order t (c.order t ++ [id]) }
  match c1.order t with
  | old :: rest =>
    if (old :: rest).length > maxIds then
      { c1 with group := Function.update c1.group t (Function.update (c1.group t) old none),
                order := Function.update c1.order t rest }
    else c1
  | [] => c1

/-- The rest of `addEvent` (127-136), for an id that has an entry. -/
def Chart.note (c : Chart) (t : Node.Topic) (id : Nat) (e : Ev) : Chart :=
  { c with group := Function.update c.group t (Function.update (c.group t) id ((c.group t id).map (·.see e))),
           maxSlot := max c.maxSlot e.slot }

/-- `addEvent` (110-137). -/
def Chart.add (c : Chart) (e : Ev) : Chart :=
  if e.topic = .block ∨ e.topic = .aggregate then
    match e.id with
    | none => c
    | some id =>
      if e.node ∈ c.nodes then
        match c.group e.topic id with
        | some _ => c.note e.topic id e
        | none => (c.open_ e.topic id e.slot).note e.topic id e
      else c
  else c

/-- The entry has left the window (204-205, 248). -/
def Chart.aged (c : Chart) (x : Entry) : Bool := decide (c.maxSlot - x.slot ≥ c.window)

/-- `prune` (241-256). -/
def Chart.prune (c : Chart) : Chart :=
  { c with
    group := fun t id => match c.group t id with
      | some x => if id ∈ c.order t ∧ c.aged x then none else some x
      | none => none
    order := fun t => (c.order t).filter (fun id => match c.group t id with
      | some x => !c.aged x
      | none => false) }

/-- What happens to the panel: an event, `prune`, `setWindowSlots` (326-329). -/
inductive PAct
  | event (e : Ev)
  | prune
  | window (n : Nat)

def Chart.act (c : Chart) : PAct → Chart
  | .event e => c.add e
  | .prune => c.prune
  | .window n => { c with window := max 1 n }

/-- Everything in a list happens, oldest first. -/
def prun (nodes : List Nat) (window : Nat) (acts : List PAct) : Chart :=
  acts.foldl Chart.act (Chart.init nodes window)

/-- The dot that `draw` (202-222) makes for a node and an id: the delay. -/
def Chart.dot (c : Chart) (t : Node.Topic) (id node : Nat) : Option Int :=
  match c.group t id with
  | none => none
  | some x =>
    if c.aged x then none
    else match x.arrivals node, x.first with
      | some a, some m => some (a - m)
      | _, _ => none

end Verif.Monitor
