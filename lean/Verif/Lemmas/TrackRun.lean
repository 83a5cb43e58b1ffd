import Verif.Lemmas.TrackSlot
import Verif.Spec.Switched
/-!
# Runs of a node whose aggregator role is switched on and off
-/
namespace Verif.Node
open Verif Verif.Db Verif.Sync Verif.Votes Verif.Buffers Verif.Build

section
variable {c : VCtx} {t : Nat} {vals : List Validator} {on : Nat → Bool}

/-- While the role is on, it is a run of an aggregator. -/
theorem Switched.solo {s : Nat} {n : VNode} {l : List Signed} (h : Switched c t vals on s n l)
    (hon : ∀ i, i < s → on i = true) : Solo c t vals s n l := by
  induction h with
  | start gate h => exact .start gate h
  | @slot s n n' l l' w h hw hs ih =>
    rw [hon s (Nat.lt_succ_self _), slotAs_true] at hs
    exact .slot (ih (fun i hi => hon i (Nat.lt_succ_of_lt hi))) hw hs

theorem Calm.paced {K : Header → Prop} {D : AttData → Prop} {root : Root} {anchor : State}
    {f : Nat → Root} {s : Nat} {top : State} {ops : List Db.Op} {σ : Store}
    (C : Calm c t vals K D root anchor f s top ops σ) (hs : 3 ≤ s) :
    Paced c t vals K D root anchor f s (s - 1) top ops σ := by
  obtain ⟨t1, t2, -, t4⟩ := C.row.tip top C.row.topIs
  refine ⟨C.row.track hs, C.time, C.safe, by omega, C.genesis, ⟨?_, C.idle.cap, C.idle.newP,
    C.idle.fcNew, ?_⟩⟩
  · rw [C.idle.gossip]
    intro x hx
    cases hx
  · intro x hx
    obtain ⟨x1, x2, x3⟩ := C.idle.pool x hx
    exact ⟨x1, ⟨x2.1, x2.2.1, (t4 _).2 x2.2.2⟩, x3⟩

theorem Calm.paceOf {K : Header → Prop} {D : AttData → Prop} {root : Root} {anchor : State}
    {f : Nat → Root} {s : Nat} {top : State} {ops : List Db.Op} {σ : Store}
    (C : Calm c t vals K D root anchor f s top ops σ) :
    Node.paceOf s (s - 1) top = ⟨s, s - 2, s - 3, s - 1⟩ := by
  obtain ⟨t1, t2, -⟩ := C.row.tip top C.row.topIs
  unfold Node.paceOf
  rw [t1, t2]

theorem Paced.mono {K K' : Header → Prop} {D D' : AttData → Prop} {root : Root} {anchor : State}
    {f : Nat → Root} {s z : Nat} {top : State} {ops : List Db.Op} {σ : Store}
    (hK : ∀ h, K h → K' h) (hD : ∀ d, D d → D' d)
    (C : Paced c t vals K D root anchor f s z top ops σ) :
    Paced c t vals K' D' root anchor f s z top ops σ :=
  ⟨C.track.mono hK, C.time, C.safe, C.low, C.genesis,
    C.rested.mono (fun _ h => ⟨hD _ h.1, h.2⟩) (fun _ _ h => ⟨h.1, ⟨hD _ h.2.1.1, h.2.1.2⟩, h.2.2⟩)⟩

theorem trackVotes_mem {f : Nat → Root} {s z v : Nat} {top : State} (hv : v ∈ c.ids) :
    Signed.vote v (trackVote f s z top) (c.sign v (trackVote f s z top)) ∈ trackVotes c f s z top :=
  List.mem_map.2 ⟨v, hv, rfl⟩

theorem AllDone.step (Q : Equipped c vals) {s z : Nat} {l : List Signed} (h : AllDone vals s l)
    {f : Nat → Root} {top : State} {r : Root} {sb : SignedBlock} (hs : sb.block.slot = s + 1) :
    AllDone vals (s + 1) (l ++ (trackVotes c f s z top ++
      [.block ((s + 1) % vals.length) (s + 1) r (some (sb, .ok ()))])) := by
  constructor
  · intro i hi v hv
    rcases Nat.lt_or_ge i s with hlt | hge
    · obtain ⟨d, sig, h1, h2⟩ := h.1 i hlt v hv
      exact ⟨d, sig, h1, List.mem_append_left _ h2⟩
    · obtain rfl : i = s := by omega
      obtain ⟨sig, h1, -⟩ := Q.votes v (Q.all v hv) (trackVote f i z top)
      refine ⟨trackVote f i z top, sig, rfl, List.mem_append_right _ (List.mem_append_left _ ?_)⟩
      rw [← h1]
      exact trackVotes_mem (Q.all v hv)
  · intro i hi hi'
    rcases Nat.lt_or_ge s i with hlt | hge
    · obtain rfl : i = s + 1 := by omega
      exact ⟨r, sb, hs, by simp⟩
    · obtain ⟨r, sb, h1, h2⟩ := h.2 i hi hge
      exact ⟨r, sb, h1, List.mem_append_left _ h2⟩

theorem pace_succ {s : Nat} (hs : 3 ≤ s) : pace on (s + 1) = (pace on s).step (on s) := by
  unfold pace
  obtain ⟨k, rfl⟩ : ∃ k, s = k + 3 := ⟨s - 3, by omega⟩
  rw [show k + 3 + 1 - 3 = k + 1 by omega, show k + 3 - 3 = k by omega]
  rfl

/-- All runs follow the recurrence. -/
theorem switched_paced (Q : Equipped c vals) (hv : 2 ≤ vals.length) (hv' : vals.length ≤ 2048)
    (hon : ∀ i, i < 3 → on i = true)
    {L : List Signed} (hL : Clean c t vals L) {s : Nat} {n : VNode} {l : List Signed}
    (h : Switched c t vals on s n l) (h3 : 3 ≤ s) (hs : s ≤ historicalRootsLimit)
    (hl : ∀ x ∈ l, x ∈ L) :
    ∃ root anchor f z top ops, AnchorOk c.ctx.E.H (State.fromGenesis c.ctx.E.H t vals)
        (MadeHeader c.H (State.fromGenesis c.H t vals) L) root anchor ∧
      Paced c t vals (MadeHeader c.H (State.fromGenesis c.H t vals) L) (VoteSigned L) root anchor f s
        z top ops n.actor.store ∧ paceOf s z top = pace on s ∧ AllDone vals s l := by
  induction h with
  | start gate h => omega
  | @slot s n n' l l' w h hw hn ih =>
    rcases Nat.lt_or_ge s 3 with hlt | hge
    · obtain rfl : s = 2 := by omega
      obtain ⟨root, anchor, f, top, ops, A, C, done⟩ := solo_calm Q hv hv' hL
        ((Switched.slot h hw hn).solo (fun i hi => hon i hi)) hs hl
      exact ⟨root, anchor, f, 2, top, ops, A, C.paced (Nat.le_refl _), C.paceOf, done⟩
    obtain ⟨root, anchor, f, z, top, ops, A, C, hp, done⟩ := ih hge (by omega)
      (fun x hx => hl x (List.mem_append_left _ hx))
    have hd : VoteSigned L (trackVote f s z top) :=
      ⟨0, _, hl _ (List.mem_append_right _ (C.asked hL.world (by omega) hw hn (Q.all 0 (by omega))))⟩
    obtain ⟨a0, sync, σ1, sb, st, z', e0, e1, e2, e3⟩ := C.slot Q hL.world A hL.votes hv hv' hs hw hd
      (on s)
    have hmade : MadeHeader c.H (State.fromGenesis c.H t vals) L (sb.block.header c.H) := by
      rw [e2] at hn
      split at hn
      · cases hn
      · cases hn
        refine .inr ⟨sb, ⟨_, _, _, _, hl _ (List.mem_append_right _ (List.mem_append_right _
          (List.mem_singleton_self _)))⟩, rfl⟩
    obtain ⟨σ', ops', g1, C'⟩ := e3 _ (fun _ h => h) hL.world hmade
    rw [e2, g1] at hn
    simp only [Except.ok.injEq, Prod.mk.injEq] at hn
    obtain ⟨rfl, rfl⟩ := hn
    exact ⟨root, anchor, _, z', _, ops', A, C', by rw [pace_succ hge, ← hp, e0], done.step Q e1⟩

/-- The next slot of a run does not fail. -/
theorem switched_next (Q : Equipped c vals) (hv : 2 ≤ vals.length) (hv' : vals.length ≤ 2048)
    (hon : ∀ i, i < 3 → on i = true) (hl : ∀ l, Clean c t vals l) {s : Nat} {n : VNode}
    {l : List Signed} (h : Switched c t vals on s n l) (h3 : 3 ≤ s) (hs : s < historicalRootsLimit)
    {w : Times} (hw : OnTime t s w) : ∃ n' l', n.slotAs c (on s) s w = .ok (n', l') := by
  obtain ⟨root, anchor, f, z, top, ops, A, C, -, -⟩ := switched_paced Q hv hv' hon (hl l) h h3
    (by omega) (fun _ hx => hx)
  have hm : ∀ x ∈ l, x ∈ l ++ trackVotes c f s z top := fun x hx => List.mem_append_left _ hx
  have C1 := C.mono (fun _ h => MadeHeader.mono hm h) (fun _ h => VoteSigned.mono hm h)
  obtain ⟨a0, sync, σ1, sb, st, z', -, -, e1, e2⟩ := C1.slot Q (hl _).world
    (A.mono (fun _ h => MadeHeader.mono hm h)) (hl _).votes hv hv' (by omega) hw
    ⟨0, _, List.mem_append_right _ (trackVotes_mem (Q.all 0 (by omega)))⟩ (on s)
  obtain ⟨σ', ops', g1, -⟩ := e2 _ (fun _ h => MadeHeader.mono (l' := l ++ trackVotes c f s z top ++
      [.block ((s + 1) % vals.length) (s + 1) (sb.block.root c.H) (some (sb, .ok ()))])
      (fun x hx => List.mem_append_left _ hx) h) (hl _).world
    (.inr ⟨sb, ⟨_, _, _, _, List.mem_append_right _ (List.mem_singleton_self _)⟩, rfl⟩)
  rw [g1] at e1
  exact ⟨_, _, e1⟩

end
end Verif.Node
