import Verif.Model.Events
import Verif.Lemmas.ActorSteps
import Verif.Props.C33_Import
import Verif.Props.C59_NoPanic
import Verif.Spec.StoreWitness
import Mathlib.Data.List.Chain
/-!
# C56: chain events report every change exactly once
-/
namespace Verif.Node
open Verif Verif.Db Verif.Witness Verif.Node.Witness

/-- The checkpoints reported as justified, in order. -/
def justs (l : List ChainEvent) : List Checkpoint :=
  l.filterMap fun | .justified n r _ => some ⟨r, n⟩ | _ => none

/-- The checkpoints reported as finalized, in order. -/
def fins (l : List ChainEvent) : List Checkpoint :=
  l.filterMap fun | .finalized n r _ => some ⟨r, n⟩ | _ => none

/-- The heads reported, in order. -/
def heads (l : List ChainEvent) : List Root :=
  l.filterMap fun | .head _ r _ => some r | _ => none

/-- The blocks reported, in order. -/
def blocks (l : List ChainEvent) : List Root :=
  l.filterMap fun | .block _ r => some r | _ => none

/-- Position of the topics in one round of events. -/
def topicRank : ChainEvent → Nat
  | .block .. => 0
  | .head .. => 1
  | .justified .. => 2
  | .finalized .. => 3

/-- The event tells the truth about the store: the slot and state root are those of the block. -/
def Truthful (s : Store) : ChainEvent → Prop
  | .head n r st => ∃ h, s.header r = some h ∧ h.slot = n ∧ h.stateRoot = st
  | .block n r => ∃ h, s.header r = some h ∧ h.slot = n
  | .justified n r st => ∃ h, s.header r = some h ∧ h.slot = n ∧ h.stateRoot = st
  | .finalized n r st => ∃ h, s.header r = some h ∧ h.slot = n ∧ h.stateRoot = st

/-! ## One comparison -/

theorem diff_cases {p : Snapshot} {s : Store} {wall : Nat} {hh hj hf : Header}
    (eh : s.header s.mem.db.head = some hh) (ej : s.header s.mem.db.justified.root = some hj)
    (ef : s.header s.mem.db.finalized.root = some hf) :
    p.diff s wall =
      (if s.mem.db.head ≠ p.head ∧ wall ≤ hh.slot + 32
        then [.head hh.slot s.mem.db.head hh.stateRoot] else []) ++
      (if s.mem.db.justified ≠ p.justified
        then [.justified s.mem.db.justified.slot s.mem.db.justified.root hj.stateRoot] else []) ++
      (if s.mem.db.finalized ≠ p.finalized
        then [.finalized s.mem.db.finalized.slot s.mem.db.finalized.root hf.stateRoot] else []) := by
  unfold Snapshot.diff
  rw [eh, ej, ef]
  simp only
  congr 2
  by_cases h1 : s.mem.db.head ≠ p.head
  · rw [if_pos h1]
    by_cases h2 : wall ≤ hh.slot + 32
    · rw [if_pos (show hh.slot + headRecency ≥ wall from h2), if_pos ⟨h1, h2⟩]
    · rw [if_neg (show ¬ hh.slot + headRecency ≥ wall from h2), if_neg (fun h => h2 h.2)]
  · rw [if_neg h1, if_neg (fun h => h1 h.1)]

/-- **C56.** Comparing two snapshots whose blocks are in the store: a justified (finalized) event
exactly if that checkpoint changed, a head event exactly if the head changed and is not more than 32
slots old, in the order head, justified, finalized; nothing if nothing changed. -/
theorem C56_diff_exact {p : Snapshot} {s : Store} {wall : Nat} {hh hj hf : Header}
    (eh : s.header s.mem.db.head = some hh) (ej : s.header s.mem.db.justified.root = some hj)
    (ef : s.header s.mem.db.finalized.root = some hf) :
    heads (p.diff s wall) =
      (if s.mem.db.head ≠ p.head ∧ wall ≤ hh.slot + 32 then [s.mem.db.head] else []) ∧
    justs (p.diff s wall) =
      (if s.mem.db.justified ≠ p.justified then [s.mem.db.justified] else []) ∧
    fins (p.diff s wall) =
      (if s.mem.db.finalized ≠ p.finalized then [s.mem.db.finalized] else []) ∧
    blocks (p.diff s wall) = [] ∧
    ((p.diff s wall).map topicRank).Pairwise (· < ·) := by
  rw [diff_cases eh ej ef]
  split <;> split <;> split <;> simp_all [heads, justs, fins, blocks, topicRank]

/-! ## A running node -/

/-- The checkpoints and the head are the same. -/
def SameView (s s' : Store) : Prop :=
  s'.mem.db.head = s.mem.db.head ∧ s'.mem.db.justified = s.mem.db.justified ∧
    s'.mem.db.finalized = s.mem.db.finalized

theorem SameView.of_db {s s' : Store} (h : s'.mem.db = s.mem.db) : SameView s s' := by
  unfold SameView; rw [h]; exact ⟨rfl, rfl, rfl⟩

/-- What an import publishes. -/
theorem published_import {E : Env} {s s' : Store} {sb : SignedBlock} {wall : Nat}
    (e : R.store (onBlock E s sb) = .ok s') {out : List ChainEvent}
    (hout : out = match onBlock E s sb with
      | .ok (_, .ok ()) =>
        (if hasState s.mem.db (sb.block.root E.H) then []
          else [.block sb.block.slot (sb.block.root E.H)]) ++ (Snapshot.capture s).diff s' wall
      | _ => []) :
    (out = [] ∧ SameView s s' ∧ ∀ r, hasState s'.mem.db r = hasState s.mem.db r) ∨
    (hasState s.mem.db (sb.block.root E.H) = false ∧
      hasState s'.mem.db (sb.block.root E.H) = true ∧
      (∀ r, r ≠ sb.block.root E.H → hasState s'.mem.db r = hasState s.mem.db r) ∧
      out = .block sb.block.slot (sb.block.root E.H) :: (Snapshot.capture s).diff s' wall) ∨
    ((∀ r, hasState s'.mem.db r = hasState s.mem.db r) ∧
      out = (Snapshot.capture s).diff s' wall) := by
  subst hout
  cases ho : onBlock E s sb with
  | error k => rw [ho] at e; cases e
  | ok x =>
    obtain ⟨s1, r⟩ := x
    rw [ho] at e
    have e : s1 = s' := Except.ok.inj e
    subst e
    cases r with
    | error k =>
      left
      have := (C33_failed_import_noop ho).1
      exact ⟨rfl, .of_db this, fun r => by rw [this]⟩
    | ok u =>
      cases u
      right
      simp only
      by_cases hn : hasState s.mem.db (sb.block.root E.H) = true
      · right
        rw [C33_reimport_noop E s sb hn] at ho
        cases ho
        rw [if_pos hn]
        exact ⟨fun _ => rfl, rfl⟩
      · left
        rw [if_neg hn]
        exact ⟨by simpa using hn, (C33_idempotent ho rfl).1,
          fun r hr => onBlock_states ho r hr, rfl⟩

/-- An event either publishes the differences (after at most one `block` event), or publishes nothing
and changes nothing it would have to report. -/
theorem published_cases {E : Env} {s s' : Store} {ev : Event} {wall : Nat}
    (e : step E s ev = .ok s') :
    (published E s ev s' wall = [] ∧ SameView s s' ∧
      ∀ r, hasState s'.mem.db r = hasState s.mem.db r) ∨
    (∃ sb, (ev = .block sb ∨ ev = .own sb) ∧ hasState s.mem.db (sb.block.root E.H) = false ∧
      hasState s'.mem.db (sb.block.root E.H) = true ∧
      (∀ r, r ≠ sb.block.root E.H → hasState s'.mem.db r = hasState s.mem.db r) ∧
      published E s ev s' wall =
        .block sb.block.slot (sb.block.root E.H) :: (Snapshot.capture s).diff s' wall) ∨
    ((∀ r, hasState s'.mem.db r = hasState s.mem.db r) ∧
      published E s ev s' wall = (Snapshot.capture s).diff s' wall) := by
  have still : ev.Plain → ∀ r, hasState s'.mem.db r = hasState s.mem.db r :=
    fun hb r => (step_still hb e).1.hasState r
  cases ev with
  | block sb =>
    have e : processOrPend E s sb = .ok s' := e
    unfold processOrPend at e
    unfold published
    by_cases h1 : sb.block.slot ≤ s.mem.db.finalized.slot
    · rw [if_pos h1] at e
      cases e
      left; simp only [if_pos h1]; exact ⟨trivial, .of_db rfl, fun _ => trivial⟩
    rw [if_neg h1] at e
    by_cases h2 : sb.block.slot * intervalsPerSlot > s.mem.db.time + gossipDisparity
    · rw [if_pos h2] at e
      cases e
      left; simp only [if_neg h1, if_pos h2]; exact ⟨trivial, .of_db rfl, fun _ => trivial⟩
    rw [if_neg h2] at e
    by_cases h3 : ¬ hasState s.mem.db sb.block.parentRoot = true
    · rw [if_pos h3] at e
      cases e
      left; simp only [if_neg h1, if_neg h2, if_pos h3]
      exact ⟨trivial, ⟨rfl, rfl, rfl⟩, fun _ => rfl⟩
    rw [if_neg h3] at e
    simp only [if_neg h1, if_neg h2, if_neg h3]
    rcases published_import (wall := wall) e rfl with h | ⟨h1, h2, h3, h4⟩ | h
    · exact .inl h
    · exact .inr (.inl ⟨sb, .inl rfl, h1, h2, h3, h4⟩)
    · exact .inr (.inr h)
  | own sb =>
    have e : R.store (onBlock E s sb) = .ok s' := e
    rcases published_import (wall := wall) e rfl with h | ⟨h1, h2, h3, h4⟩ | h
    · exact .inl h
    · exact .inr (.inl ⟨sb, .inr rfl, h1, h2, h3, h4⟩)
    · exact .inr (.inr h)
  | read r =>
    refine .inl ⟨rfl, ?_, still (by intro sb; constructor <;> (intro h; cases h))⟩
    unfold step at e
    simp only at e
    split at e
    · cases e
    next h => cases e; exact .of_db (getState_frame h).1
  | tick ts p => exact .inr (.inr ⟨still (by intro sb; constructor <;> (intro h; cases h)), rfl⟩)
  | accept => exact .inr (.inr ⟨still (by intro sb; constructor <;> (intro h; cases h)), rfl⟩)
  | attestation v d sig g =>
    exact .inl ⟨rfl, .of_db (attestation_still e), still (by intro sb; constructor <;> (intro h; cases h))⟩
  | aggregate d a =>
    exact .inl ⟨rfl, .of_db (aggregate_still e), still (by intro sb; constructor <;> (intro h; cases h))⟩
  | ownAggregate d a keys =>
    refine .inl ⟨rfl, ?_, still (by intro sb; constructor <;> (intro h; cases h))⟩
    have e : applyAggregate E.H s d a keys = .ok s' := e
    unfold applyAggregate at e
    split at e
    · cases e
    next s1 h1 =>
      split at e
      · cases e
      · cases e
        have := insertNewPayload_mem h1
        exact .of_db (by rw [show ({ s1 with gossip := _ } : Store).mem = s1.mem from rfl, this])
  | prune =>
    refine .inl ⟨rfl, ?_, still (by intro sb; constructor <;> (intro h; cases h))⟩
    have e : (match pruneOldData s.mem.db with
      | .error e => .error e
      | .ok db => .ok { s with mem := { s.mem with db := db } } : P Store) = .ok s' := e
    split at e
    · cases e
    next db hdb =>
      cases e
      unfold pruneOldData at hdb
      split at hdb
      · cases hdb
      · have hdb := Except.ok.inj hdb
        unfold SameView
        simp only
        rw [← hdb]
        unfold pruneProofs pruneBelow
        split <;> exact ⟨rfl, rfl, rfl⟩
  | restart =>
    cases e
    exact .inl ⟨rfl, .of_db rfl, fun _ => rfl⟩

theorem view_headers {E : Env} {t : Nat} {vals : List Validator} {bs : List Block} {a0 : State}
    {body : Option (List AggAtt)} {evs : List Event} {s : Store} {K : Header → Prop}
    (W : World E t vals bs a0 K) (h : Reach E a0 body evs s) (hk : ∀ ev ∈ evs, EventK E.H K ev) :
    (∃ x, s.header s.mem.db.head = some x) ∧
    (∃ x, s.header s.mem.db.justified.root = some x ∧ x.slot = s.mem.db.justified.slot) ∧
    (∃ x, s.header s.mem.db.finalized.root = some x ∧ x.slot = s.mem.db.finalized.slot) ∧
    (∀ r, hasState s.mem.db r = true → ∃ x, s.header r = some x ∧ E.H.header x = r ∧ K x) := by
  obtain ⟨root, anchor, ops, A, I, -⟩ := reach_ninv W h hk
  obtain ⟨sh, g1⟩ := I.cp.head
  obtain ⟨sj, g2, g3⟩ := I.cp.just
  obtain ⟨sf, g4, g5⟩ := I.cp.fin
  refine ⟨⟨_, (I.tree.own _ _ g1).2⟩, ⟨_, (I.tree.own _ _ g2).2, ?_⟩, ⟨_, (I.tree.own _ _ g4).2, ?_⟩,
    fun r hr => ?_⟩
  · rw [I.tree.slotEq _ _ g2, g3]
  · rw [I.tree.slotEq _ _ g4, g5]
  · rw [hasState_iff (I.inv W).repr] at hr
    obtain ⟨st, hst⟩ := Option.isSome_iff_exists.1 hr
    obtain ⟨o1, o2⟩ := I.tree.own _ _ hst
    exact ⟨_, o2, o1, (I.hdrK W _ _ o2).1⟩

/-- **C56.** Every event of a running node publishes a justified (finalized) event exactly if that
checkpoint changed, a head event exactly if the head changed and is recent, and a block event exactly
if a block was imported that had not been before; in the order block, head, justified, finalized; and
what they say is what the store holds. -/
theorem C56_running_node {E : Env} {t : Nat} {vals : List Validator} {bs : List Block} {a0 : State}
    {body : Option (List AggAtt)} {evs : List Event} {s s' : Store} {ev : Event} {wall : Nat}
    (W : World E t vals bs a0 (Known E.H (State.fromGenesis E.H t vals) bs (ev :: evs)))
    (h : Reach E a0 body evs s) (e : step E s ev = .ok s') :
    justs (published E s ev s' wall) =
      (if s'.mem.db.justified ≠ s.mem.db.justified then [s'.mem.db.justified] else []) ∧
    fins (published E s ev s' wall) =
      (if s'.mem.db.finalized ≠ s.mem.db.finalized then [s'.mem.db.finalized] else []) ∧
    (∃ hh, s'.header s'.mem.db.head = some hh ∧ heads (published E s ev s' wall) =
      (if s'.mem.db.head ≠ s.mem.db.head ∧ wall ≤ hh.slot + 32 then [s'.mem.db.head] else [])) ∧
    (∀ r, r ∈ blocks (published E s ev s' wall) ↔
      hasState s.mem.db r = false ∧ hasState s'.mem.db r = true) ∧
    ((published E s ev s' wall).map topicRank).Pairwise (· < ·) ∧
    (∀ x ∈ published E s ev s' wall, Truthful s' x) := by
  have R' : Reach E a0 body (ev :: evs) s' := .step h e
  obtain ⟨⟨hh, eh⟩, ⟨hj, ej, sj⟩, ⟨hf, ef, sf⟩, hst⟩ := view_headers W R' eventK_known
  obtain ⟨d1, d2, d3, d4, d5⟩ := C56_diff_exact (p := Snapshot.capture s) (wall := wall) eh ej ef
  have d6 : ∀ x ∈ (Snapshot.capture s).diff s' wall, Truthful s' x := by
    intro x hx
    rw [diff_cases eh ej ef] at hx
    rcases List.mem_append.1 hx with hx | hx
    · rcases List.mem_append.1 hx with hx | hx
      · split at hx
        · cases List.mem_singleton.1 hx; exact ⟨hh, eh, rfl, rfl⟩
        · cases hx
      · split at hx
        · cases List.mem_singleton.1 hx; exact ⟨hj, ej, sj, rfl⟩
        · cases hx
    · split at hx
      · cases List.mem_singleton.1 hx; exact ⟨hf, ef, sf, rfl⟩
      · cases hx
  have c1 : (Snapshot.capture s).head = s.mem.db.head := rfl
  have c2 : (Snapshot.capture s).justified = s.mem.db.justified := rfl
  have c3 : (Snapshot.capture s).finalized = s.mem.db.finalized := rfl
  rw [c1] at d1
  rw [c2] at d2
  rw [c3] at d3
  have nob : ∀ {x y : Bool}, x = y → ¬ (y = false ∧ x = true) := by
    intro x y h; subst h; cases x <;> simp
  rcases published_cases (wall := wall) e with ⟨p, ⟨v1, v2, v3⟩, v4⟩ | ⟨sb, hsb, n1, n2, n3, p⟩ | ⟨v4, p⟩
  · rw [p, v2, v3]
    refine ⟨by simp [justs], by simp [fins], ⟨hh, eh, ?_⟩, fun r => ?_, .nil, (fun x hx => by cases hx)⟩
    · rw [if_neg (fun h => h.1 v1)]; rfl
    · exact ⟨(fun h => by cases h), fun h => absurd h (nob (v4 r))⟩
  · rw [p]
    refine ⟨d2, d3, ⟨hh, eh, d1⟩, fun r => ?_, ?_, fun x hx => ?_⟩
    · have hb : blocks (.block sb.block.slot (sb.block.root E.H) ::
          (Snapshot.capture s).diff s' wall) = [sb.block.root E.H] := by
        show sb.block.root E.H :: blocks ((Snapshot.capture s).diff s' wall) = _
        rw [d4]
      rw [hb, List.mem_singleton]
      constructor
      · rintro rfl; exact ⟨n1, n2⟩
      · intro hr
        by_cases hne : r = sb.block.root E.H
        · exact hne
        · exact absurd hr (nob (n3 r hne))
    · rw [List.map_cons, List.pairwise_cons]
      refine ⟨fun y hy => ?_, d5⟩
      obtain ⟨x, hx, rfl⟩ := List.mem_map.1 hy
      have : x ∉ (Snapshot.capture s).diff s' wall ∨ topicRank x ≠ 0 := by
        by_cases h0 : topicRank x = 0
        · left
          intro hx
          cases x with
          | block n r =>
            have : r ∈ blocks ((Snapshot.capture s).diff s' wall) :=
              List.mem_filterMap.2 ⟨_, hx, rfl⟩
            rw [d4] at this; cases this
          | _ => cases h0
        · exact .inr h0
      rcases this with h | h
      · exact absurd hx h
      · exact Nat.pos_of_ne_zero h
    · rcases List.mem_cons.1 hx with rfl | hx
      · obtain ⟨x, x1, x2, x3⟩ := hst _ n2
        refine ⟨x, x1, ?_⟩
        have hk : Known E.H (State.fromGenesis E.H t vals) bs (ev :: evs)
            (sb.block.header E.H) :=
          .inr (.inr ⟨sb, by
            rcases hsb with rfl | rfl
            · exact .inl List.mem_cons_self
            · exact .inr List.mem_cons_self, rfl⟩)
        rw [W.collisionFree _ _ x3 hk x2]
        rfl
      · exact d6 x hx
  · rw [p]
    refine ⟨d2, d3, ⟨hh, eh, d1⟩, fun r => ?_, d5, d6⟩
    rw [d4]
    exact ⟨(fun h => by cases h), fun h => absurd h (nob (v4 r))⟩

/-- A history together with everything published since the start (newest last), at arbitrary wall
clock readings. -/
inductive Stream (E : Env) (a0 : State) (body : Option (List AggAtt)) :
    List Event → Store → List ChainEvent → Prop
  | init {s : Store} : init E a0 body = .ok s → Stream E a0 body [] s []
  | step {evs : List Event} {s : Store} {out : List ChainEvent} {ev : Event} {s' : Store}
      (wall : Nat) : Stream E a0 body evs s out → step E s ev = .ok s' →
      Stream E a0 body (ev :: evs) s' (out ++ published E s ev s' wall)

theorem Stream.reach {E : Env} {a0 : State} {body : Option (List AggAtt)} {evs : List Event}
    {s : Store} {out : List ChainEvent} (h : Stream E a0 body evs s out) : Reach E a0 body evs s := by
  induction h with
  | init h => exact .init h
  | step w _ e ih => exact .step ih e

theorem chain_snoc {c0 c c' : Checkpoint} {l : List Checkpoint}
    (h : (c0 :: l).IsChain (· ≠ ·)) (hl : (c0 :: l).getLast? = some c) :
    (c0 :: (l ++ if c' ≠ c then [c'] else [])).IsChain (· ≠ ·) ∧
    (c0 :: (l ++ if c' ≠ c then [c'] else [])).getLast? = some c' := by
  by_cases hc : c' ≠ c
  · rw [if_pos hc, ← List.cons_append]
    refine ⟨?_, by rw [List.getLast?_append]; rfl⟩
    rw [List.isChain_append]
    refine ⟨h, by simp, fun x hx y hy => ?_⟩
    rw [hl] at hx
    cases hx
    simp at hy
    subst hy
    exact fun e => hc e.symm
  · have hc : c' = c := by simpa using hc
    subst hc
    rw [if_neg (fun h => h rfl), List.append_nil]
    exact ⟨h, hl⟩

/-- **C56.** A subscriber that starts with the node and remembers the last justified (finalized)
checkpoint it was told always has the store's; it is never told the same one twice in a row; and no
block is announced twice. -/
theorem C56_replay {E : Env} {t : Nat} {vals : List Validator} {bs : List Block} {a0 : State}
    {body : Option (List AggAtt)} {evs : List Event} {s s0 : Store} {out : List ChainEvent}
    (W : World E t vals bs a0 (Known E.H (State.fromGenesis E.H t vals) bs evs))
    (h : Stream E a0 body evs s out) (h0 : init E a0 body = .ok s0) :
    (s0.mem.db.justified :: justs out).getLast? = some s.mem.db.justified ∧
    (s0.mem.db.justified :: justs out).IsChain (· ≠ ·) ∧
    (s0.mem.db.finalized :: fins out).getLast? = some s.mem.db.finalized ∧
    (s0.mem.db.finalized :: fins out).IsChain (· ≠ ·) ∧
    (blocks out).Nodup ∧
    (∀ r, r ∈ blocks out ↔ hasState s0.mem.db r = false ∧ hasState s.mem.db r = true) := by
  induction h with
  | init hi =>
    rw [h0] at hi
    cases hi
    refine ⟨rfl, by simp [justs], rfl, by simp [fins], .nil, fun r => ?_⟩
    constructor
    · intro h; cases h
    · rintro ⟨h1, h2⟩; rw [h1] at h2; cases h2
  | step w hs e ih =>
    next evs s out ev s' =>
    obtain ⟨i1, i2, i3, i4, i5, i6⟩ := ih W.tail
    obtain ⟨r1, r2, -, r4, -, -⟩ := C56_running_node (wall := w) W hs.reach e
    have a1 : ∀ l, justs (out ++ l) = justs out ++ justs l := fun l => List.filterMap_append
    have a2 : ∀ l, fins (out ++ l) = fins out ++ fins l := fun l => List.filterMap_append
    have a3 : ∀ l, blocks (out ++ l) = blocks out ++ blocks l := fun l => List.filterMap_append
    rw [a1, a2, a3, r1, r2]
    obtain ⟨j1, j2⟩ := chain_snoc (c' := s'.mem.db.justified) i2 i1
    obtain ⟨f1, f2⟩ := chain_snoc (c' := s'.mem.db.finalized) i4 i3
    have mono : ∀ r, hasState s.mem.db r = true → hasState s'.mem.db r = true := by
      intro r hr
      rcases published_cases (wall := w) e with ⟨-, -, v⟩ | ⟨sb, -, -, n2, n3, -⟩ | ⟨v, -⟩
      · rw [v]; exact hr
      · by_cases hne : r = sb.block.root E.H
        · rw [hne]; exact n2
        · rw [n3 r hne]; exact hr
      · rw [v]; exact hr
    refine ⟨j2, j1, f2, f1, ?_, fun r => ?_⟩
    · refine List.nodup_append.2 ⟨i5, ?_, fun x hx y hy hxy => ?_⟩
      · rcases published_cases (wall := w) e with ⟨p, -⟩ | ⟨sb, -, -, -, -, p⟩ | ⟨-, p⟩
        · rw [p]; exact .nil
        · obtain ⟨⟨hh, eh⟩, ⟨hj, ej, -⟩, ⟨hf, ef, -⟩, -⟩ :=
            view_headers W (hs.reach.step e) eventK_known
          have d4 := (C56_diff_exact (p := Snapshot.capture s) (wall := w) eh ej ef).2.2.2.1
          rw [p]
          show (sb.block.root E.H :: blocks _).Nodup
          rw [d4]; simp
        · obtain ⟨⟨hh, eh⟩, ⟨hj, ej, -⟩, ⟨hf, ef, -⟩, -⟩ :=
            view_headers W (hs.reach.step e) eventK_known
          have d4 := (C56_diff_exact (p := Snapshot.capture s) (wall := w) eh ej ef).2.2.2.1
          rw [p, d4]; exact .nil
      · subst hxy
        have := ((i6 x).1 hx).2
        rw [((r4 x).1 hy).1] at this
        cases this
    · rw [List.mem_append, i6, r4]
      constructor
      · rintro (⟨x1, x2⟩ | ⟨x1, x2⟩)
        · exact ⟨x1, mono r x2⟩
        · refine ⟨?_, x2⟩
          cases hc : hasState s0.mem.db r with
          | false => rfl
          | true =>
            exfalso
            have : ∀ {evs s out}, Stream E a0 body evs s out → hasState s.mem.db r = true := by
              intro evs s out hst
              induction hst with
              | init hi => rw [h0] at hi; cases hi; exact hc
              | step w hs e ih =>
                rcases published_cases (wall := w) e with ⟨-, -, v⟩ | ⟨sb, -, -, n2, n3, -⟩ | ⟨v, -⟩
                · rw [v]; exact ih
                · by_cases hne : r = sb.block.root E.H
                  · rw [hne]; exact n2
                  · rw [n3 r hne]; exact ih
                · rw [v]; exact ih
            rw [this hs] at x1; cases x1
      · rintro ⟨x1, x2⟩
        cases hc : hasState s.mem.db r with
        | true => exact .inl ⟨x1, rfl⟩
        | false => exact .inr ⟨rfl, x2⟩

/-- Run and collect what is published, newest event first, wall clock at slot 6. -/
def streamRun : List Event → P (Store × List ChainEvent)
  | [] => match init wE wG (some []) with
    | .error e => .error e
    | .ok s => .ok (s, [])
  | ev :: evs => match streamRun evs with
    | .error e => .error e
    | .ok (s, out) => match step wE s ev with
      | .error e => .error e
      | .ok s' => .ok (s', out ++ published wE s ev s' 6)

/-- Non-vacuity: the fork run publishes block, head, justified and finalized events. -/
example : (match streamRun (forkEv :: forkEvs) with
    | .ok (_, out) => decide ((justs out).length ≥ 2 ∧ (fins out).length ≥ 1 ∧
        (heads out).length ≥ 3 ∧ (blocks out).length ≥ 4)
    | .error _ => false) = true := by decide +kernel

end Verif.Node
