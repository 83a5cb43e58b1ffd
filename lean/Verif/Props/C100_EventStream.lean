import Verif.Lemmas.EventBus
import Verif.Props.C56_Events
/-!
# C100: what a subscriber of the event stream is told
-/
namespace Verif.Node
open Verif Verif.Db Verif.Witness Verif.Node.Witness

theorem ofName_name (t : Topic) : Topic.ofName t.name = some t := by cases t <;> decide

theorem name_of_ofName {s : List Char} {t : Topic} (h : Topic.ofName s = some t) : s = t.name := by
  unfold Topic.ofName at h
  repeat' (split at h; · next e => cases h; exact e)
  cases h

theorem comma_name (t : Topic) : ',' ∉ t.name := by cases t <;> decide

theorem mapM_ofName : ∀ {l : List (List Char)} {ts : List Topic},
    l.mapM Topic.ofName = some ts ↔ l = ts.map Topic.name
  | [], ts => by
    simp only [List.mapM_nil, List.nil_eq, List.map_eq_nil_iff]
    exact ⟨fun h => by cases h; rfl, fun h => by rw [h]; rfl⟩
  | x :: l, ts => by
    rw [List.mapM_cons]
    constructor
    · intro h
      cases hx : Topic.ofName x with
      | none => rw [hx] at h; cases h
      | some t =>
        cases hl : l.mapM Topic.ofName with
        | none => rw [hx, hl] at h; cases h
        | some r =>
          rw [hx, hl] at h
          cases h
          rw [List.map_cons, ← name_of_ofName hx, ← mapM_ofName.1 hl]
    · intro h
      cases ts with
      | nil => cases h
      | cons t ts =>
        cases h
        rw [ofName_name, mapM_ofName.2 rfl]
        rfl

/-- **C100, the request.** A request is answered with the stream of the topics `ts` exactly if its
parameter lists their names, at least one, separated by commas; every other request is refused. -/
theorem C100_topics {q : Option (List Char)} {ts : List Topic} :
    parseTopics q = some ts ↔ ts ≠ [] ∧ q = some ([','].intercalate (ts.map Topic.name)) := by
  constructor
  · intro h
    unfold parseTopics at h
    split at h
    · cases h
    · cases h
    · next l =>
      have h := mapM_ofName.1 h
      refine ⟨?_, ?_⟩
      · rintro rfl
        exact List.splitOn_ne_nil _ _ h
      · rw [← h, List.intercalate_splitOn]
  · rintro ⟨h1, rfl⟩
    have hs : ([','].intercalate (ts.map Topic.name)).splitOn ',' = ts.map Topic.name :=
      List.splitOn_intercalate _ (fun l hl => by
        obtain ⟨t, -, rfl⟩ := List.mem_map.1 hl
        exact comma_name t) (by simpa using h1)
    unfold parseTopics
    split
    · next h => cases h
    · next h =>
      have h := Option.some.inj h
      rw [h, List.splitOn_nil] at hs
      have h2 : [] ∈ ts.map Topic.name := by rw [← hs]; exact List.mem_singleton.2 rfl
      obtain ⟨t, -, h3⟩ := List.mem_map.1 h2
      cases t <;> cases h3
    · next l h =>
      have h := Option.some.inj h
      rw [← h, hs]
      exact mapM_ofName.2 rfl

section
variable {cap : Nat} {ops ops' : List BusOp} {ts : List Topic}

theorem framesOf_client (hc : ∀ o ∈ ops', o ≠ .close (arrivals ops)) :
    framesOf (arrivals ops) (Bus.empty.run cap (ops ++ .subscribe ts :: ops')) =
      solo cap ts [] (concerns (arrivals ops) ops') := by
  obtain ⟨b, h1, h2, h3⟩ := run_append (cap := cap) (ops := ops) (ops' := .subscribe ts :: ops')
    (b := Bus.empty)
  rw [h1, framesOf_append]
  have h0 : framesOf (arrivals ops) (Bus.empty.run cap ops) = [] := by
    unfold framesOf
    rw [List.filterMap_eq_nil_iff]
    intro x hx
    have := h3 x hx
    rw [if_neg]
    simp only [Bus.empty, List.length_nil] at this
    omega
  rw [h0, List.nil_append]
  simp only [Bus.empty, List.length_nil, Nat.zero_add] at h2
  simp only [Bus.run, Bus.step, Option.toList_none, List.nil_append]
  rw [framesOf_solo (b := { b with clients := b.clients ++ [some ⟨ts, b.log.length⟩] })
    (c := ⟨ts, b.log.length⟩) (by rw [← h2]; simp) (Nat.le_refl _) hc]
  simp

/-- **C100, nothing is lost silently.** Whatever happened before a client came and whatever other
clients do: the frames it has been sent tell, in order, all events emitted since it came but the last
few it has not read yet. Each is shown, if it is of a topic the client asked for, or lies in a gap that
was announced with its exact length. The events not read yet are at most as many as the reads leave. -/
theorem C100_told (hc : ∀ o ∈ ops', o ≠ .close (arrivals ops)) :
    ∃ told rest, emitted ops' = told ++ rest ∧ rest.length = behind cap (arrivals ops) ops' ∧
      Tells ts told (framesOf (arrivals ops) (Bus.empty.run cap (ops ++ .subscribe ts :: ops'))) := by
  rw [framesOf_client hc]
  obtain ⟨told, rest, h1, h2, h3⟩ := solo_tells (cap := cap) (ts := ts)
    (os := concerns (arrivals ops) ops') (bl := [])
  refine ⟨told, rest, ?_, ?_, h2⟩
  · rw [← h1, List.nil_append, concerns_emitted]
  · rw [h3, List.length_nil, concerns_behind]

/-- **C100, those who keep up miss nothing.** A client that is never more than the capacity behind is
sent exactly the events of its topics, in order, up to those it has not read yet. -/
theorem C100_complete (hc : ∀ o ∈ ops', o ≠ .close (arrivals ops))
    (hb : ∀ p, p <+: ops' → behind cap (arrivals ops) p ≤ cap) :
    ∃ told rest, emitted ops' = told ++ rest ∧ rest.length = behind cap (arrivals ops) ops' ∧
      framesOf (arrivals ops) (Bus.empty.run cap (ops ++ .subscribe ts :: ops')) =
        (told.filter (fun e => decide (e.topic ∈ ts))).map (fun e => .event e.topic e) := by
  obtain ⟨told, rest, h1, h2, h3⟩ := C100_told (cap := cap) (ts := ts) hc
  refine ⟨told, rest, h1, h2, ?_⟩
  have hg : ∀ n, Frame.dropped n ∉
      framesOf (arrivals ops) (Bus.empty.run cap (ops ++ .subscribe ts :: ops')) := by
    rw [framesOf_client hc]
    refine solo_events (fun p hp => ?_)
    obtain ⟨q, hq, rfl⟩ := List.prefix_filterMap_iff.1 hp
    have := hb q hq
    rwa [← concerns_behind] at this
  clear hb h1 h2
  generalize framesOf (arrivals ops) _ = fs at h3 hg
  induction h3 with
  | nil => rfl
  | shown hm _ ih => simp [hm, ih (fun n h => hg n (List.mem_cons_of_mem _ h))]
  | hidden hm _ ih => simp [hm, ih hg]
  | gap => exact absurd List.mem_cons_self (hg _)

/-- **C100, clients do not disturb each other.** What a client is sent depends only on what is emitted
and when the client itself reads: take any two histories that agree on that. -/
theorem C100_alone {ops2 ops2' : List BusOp} (hc : ∀ o ∈ ops', o ≠ .close (arrivals ops))
    (hc2 : ∀ o ∈ ops2', o ≠ .close (arrivals ops2))
    (h : concerns (arrivals ops) ops' = concerns (arrivals ops2) ops2') :
    framesOf (arrivals ops) (Bus.empty.run cap (ops ++ .subscribe ts :: ops')) =
      framesOf (arrivals ops2) (Bus.empty.run cap (ops2 ++ .subscribe ts :: ops2')) := by
  rw [framesOf_client hc, framesOf_client hc2, h]

end

/-- The justified checkpoints that the frames show, in order. -/
def shownJustified (fs : List Frame) : List Checkpoint :=
  fs.filterMap fun | .event _ (.chain (.justified n r _)) => some ⟨r, n⟩ | _ => none

/-- The finalized checkpoints that the frames show, in order. -/
def shownFinalized (fs : List Frame) : List Checkpoint :=
  fs.filterMap fun | .event _ (.chain (.finalized n r _)) => some ⟨r, n⟩ | _ => none

/-- The chain events among the emitted ones. -/
def chainEvents (l : List BusEvent) : List ChainEvent :=
  l.filterMap fun | .chain e => some e | _ => none

/-- **C100, from the store to the client.** Let the node emit its chain events, with any gossip events
between them. A client that came before the first, asked for the checkpoints, keeps up and has read
everything, knows the justified and the finalized checkpoint of the store, and was shown every one on
the way exactly once. -/
theorem C100_current {E : Env} {t : Nat} {vals : List Validator} {bs : List Block} {a0 : State}
    {body : Option (List AggAtt)} {evs : List Event} {s s0 : Store} {out : List ChainEvent}
    {ops ops' : List BusOp} {ts : List Topic} {cap : Nat}
    (W : World E t vals bs a0 (Known E.H (State.fromGenesis E.H t vals) bs evs))
    (h : Stream E a0 body evs s out) (h0 : init E a0 body = .ok s0)
    (hout : chainEvents (emitted ops') = out)
    (hc : ∀ o ∈ ops', o ≠ .close (arrivals ops))
    (hb : ∀ p, p <+: ops' → behind cap (arrivals ops) p ≤ cap)
    (hread : behind cap (arrivals ops) ops' = 0) :
    (.justified ∈ ts →
      let shown := shownJustified
        (framesOf (arrivals ops) (Bus.empty.run cap (ops ++ .subscribe ts :: ops')))
      shown = justs out ∧ (s0.mem.db.justified :: shown).getLast? = some s.mem.db.justified) ∧
    (.finalized ∈ ts →
      let shown := shownFinalized
        (framesOf (arrivals ops) (Bus.empty.run cap (ops ++ .subscribe ts :: ops')))
      shown = fins out ∧ (s0.mem.db.finalized :: shown).getLast? = some s.mem.db.finalized) := by
  obtain ⟨told, rest, h1, h2, h3⟩ := C100_complete (ts := ts) hc hb
  obtain ⟨r1, -, r3, -⟩ := C56_replay W h h0
  rw [hread] at h2
  rw [List.length_eq_zero_iff.1 h2, List.append_nil] at h1
  subst h1
  rw [h3]
  have key : ∀ l : List BusEvent,
      (.justified ∈ ts → shownJustified ((l.filter (fun e => decide (e.topic ∈ ts))).map
        (fun e => Frame.event e.topic e)) = justs (chainEvents l)) ∧
      (.finalized ∈ ts → shownFinalized ((l.filter (fun e => decide (e.topic ∈ ts))).map
        (fun e => Frame.event e.topic e)) = fins (chainEvents l)) := by
    intro l
    constructor
    · intro hm
      simp only [shownJustified, justs, chainEvents]
      rw [List.filterMap_map, List.filterMap_filter, List.filterMap_filterMap]
      refine List.filterMap_congr fun e _ => ?_
      rcases e with (_ | _ | _ | _) | _ | _ | _ <;>
        simp [BusEvent.topic, hm] <;> exact ite_self _
    · intro hm
      simp only [shownFinalized, fins, chainEvents]
      rw [List.filterMap_map, List.filterMap_filter, List.filterMap_filterMap]
      refine List.filterMap_congr fun e _ => ?_
      rcases e with (_ | _ | _ | _) | _ | _ | _ <;>
        simp [BusEvent.topic, hm] <;> exact ite_self _
  subst hout
  exact ⟨fun hm => ⟨(key _).1 hm, by rw [(key _).1 hm]; exact r1⟩,
    fun hm => ⟨(key _).2 hm, by rw [(key _).2 hm]; exact r3⟩⟩

/-! ## Witnesses -/

/-- Two clients at a bus with room for two events: the first asks for blocks and reads three times, the
second asks for heads and reads nothing. -/
def busOps : List BusOp :=
  [.emit (.chain (.block 1 10)), .subscribe [.head], .subscribe [.block, .justified],
   .emit (.chain (.block 2 20)), .emit (.chain (.head 2 20 21)), .recv 1,
   .emit (.blockGossip 3 30), .emit (.chain (.block 3 30)), .recv 1, .recv 1, .recv 1,
   .emit (.chain (.justified 2 20 21)), .close 0, .recv 1]

/-- It is shown the first block, told of one lost event, and shown the second block and the checkpoint;
the gossip event is of no interest. -/
example : framesOf 1 (Bus.empty.run 2 busOps) =
    [.event .block (.chain (.block 2 20)), .dropped 1, .event .block (.chain (.block 3 30)),
     .event .justified (.chain (.justified 2 20 21))] := by decide

/-- The same client at a bus with room for three keeps up and has read everything. -/
example : let ops := busOps.take 2
    let ops' := busOps.drop 3
    (∀ o ∈ ops', o ≠ .close (arrivals ops)) ∧ arrivals ops = 1 ∧
    (∀ p ∈ ops'.inits, behind 3 1 p ≤ 3) ∧ behind 3 1 (ops' ++ [.recv 1]) = 0 := by decide

/-- A request for two topics, and two that are refused. -/
example : parseTopics (some ['h', 'e', 'a', 'd', ',', 'b', 'l', 'o', 'c', 'k']) = some [.head, .block] ∧
    parseTopics (some ['h', 'e', 'a', 'd', ',']) = none ∧ parseTopics none = none := by decide

/-- Non-vacuity of `C100_current`: the fork run of C56, emitted to a client that reads along. -/
example : (match streamRun (forkEv :: forkEvs) with
    | .ok (s, out) =>
      let ops' := out.flatMap (fun e => [.emit (.chain e), .recv 0])
      decide (chainEvents (emitted ops') = out ∧ (∀ p ∈ ops'.inits, behind 8192 0 p ≤ 8192) ∧
        behind 8192 0 ops' = 0 ∧
        (shownFinalized (framesOf 0 (Bus.empty.run 8192 (.subscribe [.finalized] :: ops')))).getLast? =
          some s.mem.db.finalized)
    | .error _ => false) = true := by decide +kernel

end Verif.Node
