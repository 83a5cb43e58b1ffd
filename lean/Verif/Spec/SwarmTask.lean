import Verif.Model.SwarmTask

/-! Notions used in the statements about the two tasks of the network side. -/

namespace Verif.Net

open Verif

/-- The message that an action puts into the mailbox of the actor. -/
def TAct.message : TAct → Option PEvent
  | .arrive e => some e
  | .answer e => some e
  | .fire r pick => some (.retry r pick true)
  | _ => none

/-- All messages that reached the mailbox, oldest first. -/
def arrivals (acts : List TAct) : List PEvent := acts.filterMap TAct.message

/-- How many commands the swarm task has executed. -/
def executed (acts : List TAct) : Nat :=
  (acts.filter (fun x => match x with | .take => true | _ => false)).length

/-- The request is open: the swarm has no answer yet, or the answer lies in the mailbox. -/
def Tasks.owes (t : Tasks) (q : ReqId × Peer) : Prop :=
  q ∈ t.open_ ∨ ∃ e ∈ t.mailbox, e.answers = some q

/-- The messages without the note whether a request was taken. -/
def unflagged (l : List PEvent) : List PEvent := l.map (PEvent.sentAs true)

end Verif.Net
