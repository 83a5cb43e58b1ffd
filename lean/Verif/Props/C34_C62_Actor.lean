import Verif.Lemmas.SRun
import Verif.Props.C37_C62_Target
import Verif.Props.C39_Delivery
/-!
# C34, C35, C36, C37, C61, C62 for the whole node

The theorems of these properties are about the store, to which blocks are handed one by one. In a
running node the actor does that: it queues blocks, keeps orphans, loads them again from the
database, and folds votes recovered from blocks back in. Here the same statements for the store inside
the actor.
-/
namespace Verif.Node
open Verif Verif.Db

section
variable {c : Ctx} {t : Nat} {vals : List Validator} {bs : List Block} {a0 : State}
  {body : Option (List AggAtt)} {evs : List Event} {a a' : Actor} {ev : Event} {f : List Root}

/-- **C34** for the whole node: the justified slot of every stored state is at most the store's; the
justified checkpoint is the initial one or that of a stored state, and names an imported block at its
slot. -/
theorem C34_actor (ho : ∀ l, (c.order l).Perm l)
    (W : World c.E t vals bs a0 (Known c.E.H (State.fromGenesis c.E.H t vals) bs evs))
    (h : AReach c a0 body evs a) :
    (∀ r st, Reads a.store r st → st.latestJustified.slot ≤ a.store.mem.db.justified.slot) ∧
    ((∃ s0, init c.E a0 body = .ok s0 ∧ a.store.mem.db.justified = s0.mem.db.justified) ∨
      ∃ r st, Reads a.store r st ∧ st.latestJustified = a.store.mem.db.justified) ∧
    ∃ st, Reads a.store a.store.mem.db.justified.root st ∧
      st.slot = a.store.mem.db.justified.slot := by
  obtain ⟨evs', R, -, W'⟩ := areach_reach ho W h
  exact ⟨fun r st hr => C34_justified_is_max W' R hr, C34_justified_attained W' R⟩

/-- **C34** for the whole node: an event leaves the justified checkpoint alone or raises its slot. -/
theorem C34_actor_monotone (ho : ∀ l, (c.order l).Perm l)
    (W : World c.E t vals bs a0 (Known c.E.H (State.fromGenesis c.E.H t vals) bs (ev :: evs)))
    (h : AReach c a0 body evs a) (hs : a.step c ev = .ok (a', f)) :
    a'.store.mem.db.justified = a.store.mem.db.justified ∨
      a.store.mem.db.justified.slot < a'.store.mem.db.justified.slot := by
  obtain ⟨rank, hR⟩ := W.acyclic
  obtain ⟨root, anchor, ops, A, I⟩ := areach_ainv ho W hR h
    (fun e he => eventK_known e (List.mem_cons_of_mem _ he))
  rcases I.step ho W A hR ev (eventK_known ev List.mem_cons_self) with ⟨e, -⟩ | ⟨a2, f2, ops', e, -, x⟩
  · rw [e] at hs; cases hs
  · rw [e] at hs
    cases hs
    exact x.just

/-- **C35** for the whole node: the finalized checkpoint is the head state's, whenever that block's
header is in the store. -/
theorem C35_actor (ho : ∀ l, (c.order l).Perm l)
    (W : World c.E t vals bs a0 (Known c.E.H (State.fromGenesis c.E.H t vals) bs evs))
    (h : AReach c a0 body evs a) :
    ∃ st, Reads a.store a.store.mem.db.head st ∧
      ((a.store.header st.latestFinalized.root).isSome →
        a.store.mem.db.finalized = st.latestFinalized) := by
  obtain ⟨evs', R, -, W'⟩ := areach_reach ho W h
  exact C35_finalized_is_the_heads W' R

/-- **C36** for the whole node: accepted votes are sound, and sound votes on chains with increasing
slots are accepted. -/
theorem C36_actor (ho : ∀ l, (c.order l).Perm l)
    (W : World c.E t vals bs a0 (Known c.E.H (State.fromGenesis c.E.H t vals) bs evs))
    (h : AReach c a0 body evs a) (d : AttData) :
    (validateData a.store d = .ok (.ok ()) →
      SoundVote a.store.mem.db.headers a.store.mem.db.finalized.root a.store.mem.db.time d) ∧
    (SlotwiseVote a.store.mem.db.headers a.store.mem.db.finalized.root a.store.mem.db.time d →
      validateData a.store d = .ok (.ok ())) := by
  obtain ⟨evs', R, -, W'⟩ := areach_reach ho W h
  exact C36_running_node W' R d

/-- **C37** for the whole node: producing a vote never fails; its head is the store's head, its target
is the one of the rule. -/
theorem C37_actor (ho : ∀ l, (c.order l).Perm l)
    (W : World c.E t vals bs a0 (Known c.E.H (State.fromGenesis c.E.H t vals) bs evs))
    (h : AReach c a0 body evs a) (slot : Nat) :
    ∃ d s', produceAttestationData a.store slot = .ok (d, s') ∧
      s'.mem.db = a.store.mem.db ∧ d.slot = slot ∧
      d.head.root = a.store.mem.db.head ∧ KnownAt a.store.mem.db.headers d.head ∧
      KnownAt a.store.mem.db.headers d.target ∧
      Ancestor a.store.mem.db.headers d.target.root a.store.mem.db.head ∧
      a.store.mem.db.justified.slot ≤ d.target.slot ∧
      (d.target = a.store.mem.db.justified ∨ d.target.slot ≤ a.store.mem.db.finalized.slot ∨
        JustifiableDistance (d.target.slot - a.store.mem.db.finalized.slot)) ∧
      ∃ sh, a.store.mem.db.headers.get? a.store.mem.db.safeTarget = some sh ∧
        TargetRule a.store.mem.db.headers a.store.mem.db.head sh.slot a.store.mem.db.justified
          a.store.mem.db.finalized d.target := by
  obtain ⟨evs', R, -, W'⟩ := areach_reach ho W h
  exact C37_attestation_target W' R slot

/-- **C61** for the whole node: the head is an imported block that is, or descends from, the
justified block. -/
theorem C61_actor (ho : ∀ l, (c.order l).Perm l)
    (W : World c.E t vals bs a0 (Known c.E.H (State.fromGenesis c.E.H t vals) bs evs))
    (h : AReach c a0 body evs a) :
    (∃ st, Reads a.store a.store.mem.db.head st) ∧
      HAnc a.store.mem.db.headers a.store.mem.db.justified.root a.store.mem.db.head := by
  obtain ⟨evs', R, -, W'⟩ := areach_reach ho W h
  exact C61_head_descends_from_justified W' R

end

section
variable {c : Ctx} {t : Nat} {vals : List Validator} {body : Option (List AggAtt)}
  {evs : List Event} {a : Actor}

/-- **C61** for the whole node started from genesis: the head also is or descends from the finalized
block. -/
theorem C61_actor_finalized (ho : ∀ l, (c.order l).Perm l)
    (W : World c.E t vals [] (State.fromGenesis c.E.H t vals)
      (Known c.E.H (State.fromGenesis c.E.H t vals) [] evs))
    (h : AReach c (State.fromGenesis c.E.H t vals) body evs a) :
    HAnc a.store.mem.db.headers a.store.mem.db.finalized.root a.store.mem.db.head := by
  obtain ⟨evs', R, -, W'⟩ := areach_reach ho W h
  exact C61_head_descends_from_finalized W' R

/-- **C62** for the whole node started from genesis: its own votes pass its own validation. -/
theorem C62_actor (ho : ∀ l, (c.order l).Perm l)
    (W : World c.E t vals [] (State.fromGenesis c.E.H t vals)
      (Known c.E.H (State.fromGenesis c.E.H t vals) [] evs))
    (h : AReach c (State.fromGenesis c.E.H t vals) body evs a) {slot : Nat} {d : AttData}
    {s' : Store} (hp : produceAttestationData a.store slot = .ok (d, s')) (h1 : d.head.slot ≤ slot)
    (h2 : slot * 5 ≤ a.store.mem.db.time + 1) : validateData s' d = .ok (.ok ()) := by
  obtain ⟨evs', R, -, W'⟩ := areach_reach ho W h
  exact C62_own_vote_accepted W' R hp h1 h2

end

namespace Witness
open Verif.Witness

/-- The actor after `evs` (newest first), begun with the tick of `clockActor`. -/
def acted (evs : List Event) : Actor := (crun wCtx clockActor evs).toOption.getD clockActor

theorem acted_reach {evs : List Event} (h : isOk (crun wCtx clockActor evs) = true) :
    AReach wCtx wG (some []) (evs ++ [.tick 32000 false]) (acted evs) := by
  refine clock_reach.run (crun_arun ?_)
  unfold acted
  cases e : crun wCtx clockActor evs with
  | error z => rw [e] at h; cases h
  | ok a => rfl

/-- Blocks 1 to 4 in the wrong order: 4, 3 and 2 are kept until 1 arrives. -/
def lateEvs : List Event :=
  [ .block (sgn (mkBlock 1 0 [])), .block (sgn (mkBlock 2 1 [vote [true, true, true] 0 1])),
    .block (sgn (mkBlock 3 2 [])), .block (sgn (mkBlock 4 3 [vote [true, true, true] 1 2])) ]

/-- Non-vacuity of C34, C35, C36, C37, C61 and C62 for the whole node: after block 1 all four are
imported; block 2 is justified, block 1 finalized, and the vote for slot 8 is accepted. -/
example : World wE 0 wVals [] wG (Known wH wG [] (lateEvs ++ [.tick 32000 false])) ∧
    AReach wCtx wG (some []) (lateEvs ++ [.tick 32000 false]) (acted lateEvs) ∧
    (acted lateEvs).store.mem.db.justified = cp 2 ∧
    (acted lateEvs).store.mem.db.finalized = cp 1 ∧ (acted lateEvs).store.mem.db.head = 5 ∧
    ((acted lateEvs.tail).store.mem.db.head, (acted lateEvs.tail).pending.length) = (1, 3) ∧
    produced (acted lateEvs).store 8 = some ⟨8, cp 4, cp 2, cp 2⟩ ∧
    (cp 4).slot ≤ 8 ∧ 8 * 5 ≤ (acted lateEvs).store.mem.db.time + 1 :=
  ⟨world_of_list (by decide +kernel) (by decide +kernel), acted_reach (by decide +kernel),
    by decide +kernel⟩

end Witness

open Verif.Witness Witness in
/-- **C35, refuted** for the whole node as well: blocks 1 to 4 arrive, block 1 is finalized; then
block 5, a sibling of block 4, arrives, and the finalized slot is 0 again. -/
theorem C35_actor_regresses :
    ∃ (c : Ctx) (t : Nat) (vals : List Validator) (body : Option (List AggAtt)) (evs : List Event)
      (ev : Event) (a a' : Actor) (f : List Root),
      (∀ l, (c.order l).Perm l) ∧
      World c.E t vals [] (State.fromGenesis c.E.H t vals)
        (Known c.E.H (State.fromGenesis c.E.H t vals) [] (ev :: evs)) ∧
      AReach c (State.fromGenesis c.E.H t vals) body evs a ∧ a.step c ev = .ok (a', f) ∧
      a'.store.mem.db.finalized.slot < a.store.mem.db.finalized.slot := by
  have h : ((acted lateEvs).step wCtx forkEv).toOption.map (fun x =>
      (x.1.store.mem.db.finalized.slot, (acted lateEvs).store.mem.db.finalized.slot)) =
      some (0, 1) := by decide +kernel
  cases e : (acted lateEvs).step wCtx forkEv with
  | error x => rw [e] at h; cases h
  | ok x =>
    rw [e] at h
    have h := Option.some.inj h
    obtain ⟨a', f⟩ := x
    have h1 : a'.store.mem.db.finalized.slot = 0 := congrArg Prod.fst h
    have h2 : (acted lateEvs).store.mem.db.finalized.slot = 1 := congrArg Prod.snd h
    exact ⟨wCtx, 0, wVals, some [], _, forkEv, acted lateEvs, a', f, fun l => .refl l,
      world_of_list (by decide +kernel) (by decide +kernel), acted_reach (by decide +kernel), e,
      by omega⟩

end Verif.Node
