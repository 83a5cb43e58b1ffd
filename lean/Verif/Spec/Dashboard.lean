import Verif.Model.Dashboard

/-! Notions used in the statements about a page that opens. -/

namespace Verif.Monitor

open Verif

/-- The event that an action publishes. -/
def DAct.event : DAct → Option Ev
  | .record _ (.chain e) => some e
  | _ => none

/-- The events published, oldest first. -/
def published (acts : List DAct) : List Ev := acts.filterMap DAct.event

/-- The server handles `GET /stream` before `GET /api/history`. -/
def StreamFirst (acts : List DAct) : Prop :=
  ∀ pre post, acts = pre ++ DAct.answer :: post → DAct.subscribe ∈ pre

/-- The page is loaded and nothing is under way. -/
structure Desk.Settled (d : Desk) : Prop where
  loaded : d.loading = false
  received : d.queue = some []
  sent : ∀ i, d.flight i = none

/-- Two events are the same: what one node saw on one topic, at one moment. -/
structure Same (e e' : Ev) : Prop where
  node : e.node = e'.node
  topic : e.topic = e'.topic
  slot : e.slot = e'.slot
  id : e.id = e'.id
  validator : e.validator = e'.validator
  arrival : e.arrival = e'.arrival

/-- No event is there twice. -/
def Distinct (l : List Ev) : Prop := l.Pairwise fun e e' => ¬ Same e e'

/-- The page shows an event. -/
def Desk.Shows (d : Desk) (e : Ev) : Prop := ∃ e' ∈ d.shown, Same e' e

/-- The event had been published when the server answered the history request, but the history did not hold it any
more. -/
def Omitted (n : Nat) (acts : List DAct) (e : Ev) : Prop :=
  ∃ pre post d0, acts = pre ++ DAct.answer :: post ∧ drun n pre = some d0 ∧ e ∈ published pre ∧
    e ∉ d0.history.snapshot

/-- No event of the history is still to arrive over the stream. -/
def Desk.CaughtUp (d : Desk) : Prop :=
  ∀ l st, d.snap = some (l, st) → ∀ e ∈ l,
    (∀ i e', d.flight i = some (.chain e') → ¬ Same e' e) ∧
    ∀ q, d.queue = some q → ∀ i e', (i, Msg.chain e') ∈ q → ¬ Same e' e

end Verif.Monitor
