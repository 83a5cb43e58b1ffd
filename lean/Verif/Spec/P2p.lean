import Verif.Model.P2p

/-
What happens to one block root, read off the outputs of a run.
-/

namespace Verif.Net
open Verif

/-- What the actor did about one root. -/
inductive RootLog where
  | asked
  | waits (ms : Nat)
  | closed
  deriving DecidableEq, Repr

/-- The outputs that concern the root `r`. -/
def rootLog (r : Root) (outs : List POut) : List RootLog :=
  outs.filterMap (fun o => match o with
    | .sendRoot _ _ r' => if r' = r then some .asked else none
    | .retryAfter r' ms => if r' = r then some (.waits ms) else none
    | .closed r' => if r' = r then some .closed else none
    | _ => none)

/-- The part of a log after the last `closed`: the current attempt to fetch the root. -/
def current (l : List RootLog) : List RootLog :=
  l.foldl (fun acc o => if o = .closed then [] else acc ++ [o]) []

/-- The delays in a log. -/
def delays (l : List RootLog) : List Nat :=
  l.filterMap (fun o => match o with
    | .waits ms => some ms
    | _ => none)

/-- The root is marked as being fetched. -/
def Fetching (w : PWorld) (r : Root) : Prop := w.srv.pending.has r = true

/-- A request for the root is unanswered. -/
def Unanswered (w : PWorld) (r : Root) : Prop :=
  ∃ id p, (id, p) ∈ w.inflight ∧ w.srv.outbound.get? id = some (.root r)

/-- A retry for the root is scheduled. -/
def RetryScheduled (w : PWorld) (r : Root) : Prop := r ∈ w.timers

/-- The event answers a request for `r` with blocks none of which is `r`, or with an error response. -/
def WrongAnswer (s : Server) (r : Root) : PEvent → Prop
  | .blocks id _ bs _ => s.outbound.get? id = some (.root r) ∧ bs ≠ [] ∧ ∀ b ∈ bs, b.root ≠ r
  | .errorResponse id _ => s.outbound.get? id = some (.root r)
  | _ => False

/-- In this run a request for `r` was answered with blocks none of which is `r`, or with an error
response. -/
def WrongAnswered (tr : List (PEvent × List POut)) (r : Root) : Prop :=
  ∃ pre e outs post id p, tr = pre ++ (e, outs) :: post ∧ POut.sendRoot id p r ∈ outputs pre ∧
    ((∃ q bs sent, e = .blocks id q bs sent ∧ bs ≠ [] ∧ ∀ b ∈ bs, b.root ≠ r) ∨
     ∃ q, e = .errorResponse id q)

/-! ### Range sync -/

/-- The range requests among outputs: id, peer, first slot, number of slots. -/
def rangeSends (outs : List POut) : List (ReqId × Peer × Nat × Nat) :=
  outs.filterMap (fun o => match o with
    | .sendRange id p a c => some (id, p, a, c)
    | _ => none)

/-- The events of a run, in order. -/
def eventsOf (tr : List (PEvent × List POut)) : List PEvent := tr.map Prod.fst

/-- Among these events, peer `p` told us its head slot `head` while ours was `ourHead`. -/
def Told (evs : List PEvent) (p : Peer) (head ourHead : Nat) : Prop :=
  ∃ sent, PEvent.status p head ourHead sent ∈ evs

/-- Among these events, request `i` was answered with at least one block. -/
def Completed (evs : List PEvent) (i : ReqId) : Prop :=
  ∃ q bs sent, PEvent.blocks i q bs sent ∈ evs ∧ bs ≠ []

/-- Among these events, request `i` failed, or was answered with no blocks or an error. -/
def RequestFailed (evs : List PEvent) (i : ReqId) : Prop :=
  ∃ q, (∃ sent, PEvent.blocks i q [] sent ∈ evs) ∨
    PEvent.errorResponse i q ∈ evs ∨ PEvent.failure i q ∈ evs

/-- No status message among these events. -/
def NoStatus (evs : List PEvent) : Prop :=
  ∀ p head ourHead sent, PEvent.status p head ourHead sent ∉ evs

/-! ### Blocks handed on -/

/-- The blocks handed to the blockchain actor, in order. -/
def forwards (outs : List POut) : List RBlock :=
  outs.filterMap (fun o => match o with
    | .forward b => some b
    | _ => none)

/-- Request `id` was sent to `p`, and `wanted` says which blocks it asked for. -/
inductive Requested (outs : List POut) (id : ReqId) (p : Peer) : (wanted : RBlock → Bool) → Prop
  | root (r : Root) : POut.sendRoot id p r ∈ outs →
      Requested outs id p (fun b => decide (b.root = r))
  | range (start count : Nat) : POut.sendRange id p start count ∈ outs →
      Requested outs id p (fun b => decide (start ≤ b.slot ∧ b.slot < start + count))

/-! ### Who was asked -/

/-- The peers asked for `r`, in order. -/
def asks (r : Root) (outs : List POut) : List Peer :=
  outs.filterMap (fun o => match o with
    | .sendRoot _ p r' => if r' = r then some p else none
    | _ => none)

/-! ### Syncing from one honest peer -/

/-- What a peer whose chain is `bs` answers when asked for `count` slots from `start`. -/
def served (bs : List RBlock) (start count : Nat) : List RBlock :=
  bs.filter (fun b => decide (start ≤ b.slot ∧ b.slot < start + count))

/-- The outputs `outs` have just been produced; as long as they contain a range request, it is answered
from the chain `bs`, at most `n` times.  The result is the final state and all outputs. -/
def syncWith (ord : AMap Peer Nat → AMap Peer Nat) (bs : List RBlock) :
    Nat → PWorld → List POut → PWorld × List POut
  | 0, w, outs => (w, outs)
  | n + 1, w, outs =>
    match rangeSends outs with
    | [] => (w, outs)
    | (id, p, a, c) :: _ =>
      let res := w.step ord (.blocks id p (served bs a c) true)
      let rest := syncWith ord bs n res.1 res.2
      (rest.1, outs ++ rest.2)

/-- Peer `p`, whose chain is `bs` and ends at slot `head`, tells us so while our head is at `ourHead`,
and then answers our range requests, at most `n` of them. -/
def syncFrom (ord : AMap Peer Nat → AMap Peer Nat) (bs : List RBlock) (n : Nat) (w : PWorld) (p : Peer)
    (head ourHead : Nat) : PWorld × List POut :=
  let res := w.step ord (.status p head ourHead true)
  syncWith ord bs n res.1 res.2

end Verif.Net
