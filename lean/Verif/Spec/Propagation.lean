import Verif.Model.Propagation

/-! Notions used in the statements about the propagation panel. -/

namespace Verif.Monitor

open Verif

/-- The events that reach the panel, oldest first. -/
def arrived (acts : List PAct) : List Ev := acts.filterMap fun | .event e => some e | _ => none

/-- The numbers of slots set by the user, oldest first. -/
def windows (acts : List PAct) : List Nat := acts.filterMap fun | .window n => some (max 1 n) | _ => none

/-- An event that the panel is about: a block or an aggregate with an id, seen by a node of the list. -/
def Charted (nodes : List Nat) (e : Ev) : Prop :=
  (e.topic = .block ∨ e.topic = .aggregate) ∧ e.id ≠ none ∧ e.node ∈ nodes

/-- A sighting of an id. -/
def Sighting (nodes : List Nat) (t : Node.Topic) (id : Nat) (e : Ev) : Prop :=
  Charted nodes e ∧ e.topic = t ∧ e.id = some id

/-- The earliest arrival among the events of a kind. -/
def Earliest (evs : List Ev) (p : Ev → Prop) (a : Int) : Prop :=
  (∃ e ∈ evs, p e ∧ e.arrival = a) ∧ ∀ e ∈ evs, p e → a ≤ e.arrival

/-- The id is of one of the last slots. -/
def Recent (nodes : List Nat) (evs : List Ev) (t : Node.Topic) (id window : Nat) : Prop :=
  ∃ e ∈ evs, Sighting nodes t id e ∧ ∀ e' ∈ evs, Charted nodes e' → e'.slot < e.slot + window

/-- What the panel promises: a dot for every node that has seen a recent id, and it stands for the delay behind the
first node to see it. -/
def Delay (nodes : List Nat) (evs : List Ev) (t : Node.Topic) (id window node : Nat) (δ : Int) : Prop :=
  Recent nodes evs t id window ∧ ∃ a m, Earliest evs (fun e => Sighting nodes t id e ∧ e.node = node) a ∧
    Earliest evs (Sighting nodes t id) m ∧ δ = a - m

/-- An id belongs to one slot. -/
def OneSlot (evs : List Ev) : Prop :=
  ∀ e ∈ evs, ∀ e' ∈ evs, e.topic = e'.topic → e.id = e'.id → e.id ≠ none → e.slot = e'.slot

/-- A topic has at most so many ids. -/
def AtMost (k : Nat) (evs : List Ev) (t : Node.Topic) : Prop :=
  ∃ ids : List Nat, ids.length ≤ k ∧ ∀ e ∈ evs, e.topic = t → ∀ id, e.id = some id → id ∈ ids

end Verif.Monitor
