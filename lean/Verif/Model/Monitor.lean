import Verif.Model.EventBus
import Mathlib.Data.List.Sort

/-!
# The event monitor

`tooling/event-monitor/src`: `timing.rs` (slot geometry), `model.rs` (normalization), `hub.rs` (the history
served by `GET /api/history`), `collector.rs` (connection state of a node). Values of type `u64` are numbers,
values of type `i64` are integers; an `i64` operation that leaves the range is the error `none` (a panic in
a debug build). Not modelled: JSON (the parsers are parameters), HTTP, the measured event rate, the
broadcast channel to the browsers (as in `EventBus`), the dashboard.
-/
namespace Verif.Monitor
open Verif

/-! ## Geometry -/

/-- `Timing` (timing.rs 52-57). -/
structure Timing where
  genesisTime : Nat
  msPerSlot : Nat
  intervalsPerSlot : Nat
  deriving DecidableEq

/-- `MAX_MS_PER_SLOT` (timing.rs 37). -/
def maxMsPerSlot : Nat := 3600000

/-- `MAX_GENESIS_TIME` (timing.rs 46). -/
def maxGenesisTime : Nat := 4102444800

/-- `Timing::validate` (timing.rs 69-87). -/
def Timing.valid (t : Timing) : Bool :=
  !(t.msPerSlot == 0 || decide (t.msPerSlot > maxMsPerSlot)) && !(t.intervalsPerSlot == 0) &&
    !decide (t.genesisTime > maxGenesisTime)

/-- The result of an `i64` operation: `none` outside the range. -/
def i64 (x : Int) : Option Int := if -2 ^ 63 ≤ x ∧ x < 2 ^ 63 then some x else none

/-- `x as i64` for a `u64`. -/
def asI64 (n : Nat) : Int := if n < 2 ^ 63 then n else (n : Int) - 2 ^ 64

/-- `Timing::offset_ms` (timing.rs 94-97). -/
def Timing.offsetMs (t : Timing) (slot : Nat) (arrival : Int) : Option Int := do
  let g ← i64 (asI64 t.genesisTime * 1000)
  let o ← i64 (asI64 slot * asI64 t.msPerSlot)
  let start ← i64 (g + o)
  i64 (arrival - start)

/-- `Timing::slot_at` (timing.rs 102-111). -/
def Timing.slotAt (t : Timing) (now : Int) : Option Nat := do
  let g ← i64 (asI64 t.genesisTime * 1000)
  let elapsed := max (-2 ^ 63) (min (2 ^ 63 - 1) (now - g))
  if elapsed ≤ 0 then return 0
  return elapsed.toNat / max t.msPerSlot 1

/-- What a node answers to the two requests of `fetch_from_first_reachable` (timing.rs 154-189): both
answers, or nothing usable. -/
abbrev Answer := Option Timing

/-- `TimingOverrides` (timing.rs 115-118). -/
structure Overrides where
  genesisTime : Option Nat
  msPerSlot : Option Nat

/-- `DEFAULT_INTERVALS_PER_SLOT` (timing.rs 25). -/
def defaultIntervals : Nat := 5

/-- `bootstrap` (timing.rs 201-228); `answers` are those of the configured nodes, in order. -/
def bootstrap (answers : List Answer) (o : Overrides) : Option Timing := do
  let fetched := answers.findSome? id
  let g ← o.genesisTime.orElse (fun _ => fetched.map (·.genesisTime))
  let ms ← o.msPerSlot.orElse (fun _ => fetched.map (·.msPerSlot))
  let timing : Timing := ⟨g, ms, (fetched.map (·.intervalsPerSlot)).getD defaultIntervals⟩
  if timing.valid then some timing else none

/-! ## Normalization -/

/-- `NormalizedEvent` (model.rs 50-60). -/
structure Ev where
  node : Nat
  topic : Node.Topic
  slot : Nat
  arrival : Int
  offset : Int
  id : Option Nat
  validator : Option Nat
  participants : Option Nat
  deriving DecidableEq

/-- The JSON parsers of `model.rs` 22-47 and the content hash of an aggregate (110-133); `J` is the type of
the texts. -/
structure Parsers (J : Type) where
  /-- `slot` and `block` -/
  slotBlock : J → Option (Nat × Nat)
  /-- `validator_id` and `data` -/
  attestation : J → Option (Nat × AttData)
  /-- `participants` and `data` -/
  aggregate : J → Option (List Nat × AttData)
  /-- the hash of the data and the sorted participants -/
  hash : AttData → List Nat → Nat

/-- `aggregate_id` (model.rs 110-120). -/
def aggregateId {J : Type} (p : Parsers J) (d : AttData) (participants : List Nat) : Nat :=
  p.hash d (participants.insertionSort (· ≤ ·))

/-- Why `normalize` drops a frame (`NormalizeError`, model.rs 79-96); `panic` is an overflow. -/
inductive Drop
  | unknownTopic | json | implausibleSlot | panic
  deriving DecidableEq

/-- `MAX_FUTURE_SLOTS` (model.rs 76). -/
def maxFutureSlots : Nat := 8

/-- `u64::MAX`, at which additions saturate. -/
def u64Max : Nat := 2 ^ 64 - 1

/-- The payload of a frame by its topic (model.rs 148-163): slot, id, validator, number of participants. -/
def payload {J : Type} (p : Parsers J) (topic : Node.Topic) (data : J) :
    Option (Nat × Option Nat × Option Nat × Option Nat) :=
  match topic with
  | .block | .blockGossip | .head | .justified | .finalized =>
    (p.slotBlock data).map (fun x => (x.1, some x.2, none, none))
  | .attestation => (p.attestation data).map (fun x => (x.2.slot, none, some x.1, none))
  | .aggregate => (p.aggregate data).map (fun x =>
      (x.2.slot, some (aggregateId p x.2 x.1), none, some (min x.1.length (2 ^ 32 - 1))))

/-- `normalize` (model.rs 136-186). -/
def normalize {J : Type} (p : Parsers J) (node : Nat) (topic : List Char) (data : J) (arrival : Int)
    (t : Timing) : Except Drop Ev :=
  match Node.Topic.ofName topic with
  | none => .error .unknownTopic
  | some topic => match payload p topic data with
    | none => .error .json
    | some (slot, id, validator, participants) => match t.slotAt arrival with
      | none => .error .panic
      | some here =>
        if slot > min u64Max (here + maxFutureSlots) then .error .implausibleSlot
        else match t.offsetMs slot arrival with
          | none => .error .panic
          | some offset => .ok ⟨node, topic, slot, arrival, offset, id, validator, participants⟩

/-! ## History -/

/-- `HISTORY_MAX_EVENTS` (hub.rs 23). -/
def historyMax : Nat := 50000

/-- `SNAPSHOT_MAX_EVENTS_PER_SERIES` (hub.rs 34). -/
def seriesMax : Nat := 2000

/-- `History` (hub.rs 64-69), without the status per node; oldest event first. -/
structure History where
  events : List Ev
  maxSlot : Nat
  retain : Nat

/-- `Hub::new` with `History::new` (hub.rs 72-79, 154-160). -/
def History.new (historySlots : Nat) : History := ⟨[], 0, max historySlots 1⟩

/-- The condition in the first loop of `prune` (hub.rs 104). -/
def History.stale (h : History) (e : Ev) : Bool := decide (h.maxSlot - e.slot ≥ h.retain)

/-- `History::prune` (hub.rs 102-113). -/
def History.prune (h : History) : History :=
  let fresh := h.events.dropWhile h.stale
  { h with events := fresh.drop (fresh.length - historyMax) }

/-- `History::push_event` (hub.rs 81-85). -/
def History.push (h : History) (e : Ev) : History :=
  { h with maxSlot := max h.maxSlot e.slot, events := h.events ++ [e] }.prune

/-- `History::reset` (hub.rs 93-96). -/
def History.reset (h : History) : History := { h with events := [], maxSlot := 0 }

/-- The loop of `snapshot` (hub.rs 125-134), over the events newest first, with the number kept per series
so far. -/
def keep (kept : Nat × Node.Topic → Nat) : List Ev → List Ev
  | [] => []
  | e :: l =>
    if kept (e.node, e.topic) ≥ seriesMax then keep kept l
    else e :: keep (Function.update kept (e.node, e.topic) (kept (e.node, e.topic) + 1)) l

/-- `History::snapshot` (hub.rs 122-140), the events. -/
def History.snapshot (h : History) : List Ev := (keep (fun _ => 0) h.events.reverse).reverse

/-! ## Collectors and the refresher -/

/-- The monitor: geometry (the watch channel), history, for each collector the normalized event it has not
published yet (between reading the geometry at collector.rs 295 and the lock at hub.rs 169), and the time of
the last frame. -/
structure Mon where
  timing : Timing
  history : History
  flight : Nat → Option Ev
  clock : Int

/-- What the tasks of `main.rs` 52-68 do. -/
inductive Act
  | frame (i : Nat) (e : Ev)
  | publish (i : Nat) (e : Ev)
  | reset
  | send (t : Timing)
  deriving DecidableEq

/-- One step of one of the tasks. Simplified: the clock of the collector does not run backwards. -/
inductive Step {J : Type} (p : Parsers J) : Mon → Act → Mon → Prop
  /-- A collector gets a frame and normalizes it (`connect_and_stream` 290-297, `handle_frame` 329-335). -/
  | frame {m : Mon} {i : Nat} {topic : List Char} {data : J} {arrival : Int} {e : Ev}
      (idle : m.flight i = none) (later : m.clock ≤ arrival)
      (ok : normalize p i topic data arrival m.timing = .ok e) :
      Step p m (.frame i e) { m with flight := Function.update m.flight i (some e), clock := arrival }
  /-- The collector publishes it (`publish_chain`, hub.rs 167-173). -/
  | publish {m : Mon} {i : Nat} {e : Ev} (has : m.flight i = some e) :
      Step p m (.publish i e)
        { m with flight := Function.update m.flight i none, history := m.history.push e }
  /-- The refresher has found a new geometry and drops the history (`run_refresher`, timing.rs 285). -/
  | reset {m : Mon} : Step p m .reset { m with history := m.history.reset }
  /-- The refresher publishes the geometry (timing.rs 290). -/
  | send {m : Mon} {t : Timing} (ok : t.valid = true) : Step p m (.send t) { m with timing := t }

/-- A sequence of steps, the newest first. -/
inductive Run {J : Type} (p : Parsers J) (m : Mon) : List Act → Mon → Prop
  | nil : Run p m [] m
  | step {l : List Act} {m' m'' : Mon} {a : Act} (run : Run p m l m') (step : Step p m' a m'') :
      Run p m (a :: l) m''

/-! ## Connection state -/

/-- `INITIAL_BACKOFF` and `MAX_BACKOFF` in milliseconds (collector.rs 17-18). -/
def initialBackoff : Nat := 250
def maxBackoff : Nat := 10000

/-- `NodeState` (model.rs 190-194). -/
inductive NodeState
  | connected | reconnecting | down
  deriving DecidableEq

/-- One attempt of `connect_and_stream` (collector.rs 251-314) as the loop sees it: whether the connection
was established, and how many heartbeats it lived. -/
structure Attempt where
  connected : Bool
  heartbeats : Nat

/-- `Attempt.healthy` (collector.rs 72-84, 309). -/
def Attempt.healthy (a : Attempt) : Bool := a.connected && decide (a.heartbeats > 0)

/-- A collector: the next delay, and the states published, newest first (`StatusPublisher` 173-212). -/
structure Collector where
  delay : Nat
  published : List NodeState

/-- `publish` (collector.rs 190-197). -/
def Collector.publish (c : Collector) (s : NodeState) : Collector :=
  { c with published := s :: c.published }

/-- `publish_change` (collector.rs 206-210). -/
def Collector.publishChange (c : Collector) (s : NodeState) : Collector :=
  if c.published.head? = some s then c else c.publish s

/-- The start of `run_collector` (collector.rs 223-225). -/
def Collector.start : Collector := (⟨initialBackoff, []⟩ : Collector).publishChange .reconnecting

/-- One round of the loop of `run_collector` (collector.rs 227-244). -/
def Collector.round (c : Collector) (a : Attempt) : Collector :=
  let c := if a.connected then
      (List.replicate (a.heartbeats + 1) NodeState.connected).foldl Collector.publish c else c
  let current := if a.healthy then initialBackoff else c.delay
  let state := if current ≥ maxBackoff then NodeState.down else .reconnecting
  ({ c with delay := min (current * 2) maxBackoff }).publishChange state

end Verif.Monitor
