import Verif.Spec.Propagation

/-
The panel of arrival times of the dashboard.

Source (read as text, /repo): `tooling/event-monitor/web/beeswarm.js`, `createBeeswarm` 70-343.

Simplified: colours, jitter and fading are left out.  Numbers are whole, and slots are not negative.
-/

namespace Verif.Monitor

open Verif

/-- `MAX_POINTS_PER_NODE` (6). -/
def maxPoints : Nat := 2000

/-- A point (131-137): topic, offset within two slots, whether the event came before its slot, slot. -/
structure Point where
  topic : Node.Topic
  offset : Int
  early : Bool
  slot : Nat
  deriving DecidableEq

/-- The state of the panel (72-79): the nodes and the length of a slot of `meta`, the points per node oldest first, the
newest slot, the number of slots shown. -/
structure Swarm where
  nodes : List Nat
  slotMs : Int
  points : Nat → List Point
  maxSlot : Nat
  window : Nat

def Swarm.init (nodes : List Nat) (slotMs : Int) (window : Nat) : Swarm := ⟨nodes, slotMs, fun _ => [], 0, window⟩

/-- The point for an event (122, 131-137). -/
def pointOf (slotMs : Int) (e : Ev) : Point :=
  ⟨e.topic, min (max e.offset 0) (slotMs * 2), decide (e.offset < 0), e.slot⟩

/-- `addEvent` (115-143). -/
def Swarm.add (s : Swarm) (e : Ev) : Swarm :=
  if (e.topic = .block ∨ e.topic = .attestation ∨ e.topic = .aggregate) ∧ e.node ∈ s.nodes then
    let l := s.points e.node ++ [pointOf s.slotMs e]
    { s with maxSlot := max s.maxSlot e.slot,
             points := Function.update s.points e.node (l.drop (l.length - maxPoints)) }
  else s

/-- The point has left the window (247-248, 276). -/
def Swarm.aged (s : Swarm) (p : Point) : Bool := decide (s.maxSlot - p.slot ≥ s.window)

/-- `prune` (273-279), `setWindowSlots` (329-332) and `addEvent`. -/
def Swarm.act (s : Swarm) : PAct → Swarm
  | .event e => s.add e
  | .prune => { s with points := fun n => (s.points n).dropWhile s.aged }
  | .window n => { s with window := max 1 n }

/-- Everything in a list happens, oldest first. -/
def srun (nodes : List Nat) (slotMs : Int) (window : Nat) (acts : List PAct) : Swarm :=
  acts.foldl Swarm.act (Swarm.init nodes slotMs window)

/-- The points drawn for a node (243-263). -/
def Swarm.drawn (s : Swarm) (n : Nat) : List Point := (s.points n).filter fun p => !s.aged p

end Verif.Monitor
