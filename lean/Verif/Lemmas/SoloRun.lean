import Verif.Lemmas.SoloSlot
/-!
# Runs of a node that has all validators
-/
namespace Verif.Node
open Verif Verif.Db Verif.Sync Verif.Votes Verif.Buffers Verif.Build

section
variable {c : VCtx} {t : Nat} {vals : List Validator}

theorem Clean.world {l : List Signed} (h : Clean c t vals l) :
    World c.ctx.E t vals [] (State.fromGenesis c.ctx.E.H t vals)
      (MadeHeader c.H (State.fromGenesis c.H t vals) l) :=
  { chain := .nil
    headerNZ := h.headerNZ
    stateNZ := h.stateNZ
    genesis := .inl rfl
    old := fun b hb => by cases hb
    collisionFree := h.headers
    acyclic := h.acyclic }

theorem MadeHeader.mono {H : Hash} {g : State} {l l' : List Signed} (hl : ∀ x ∈ l, x ∈ l') {h : Header}
    (hh : MadeHeader H g l h) : MadeHeader H g l' h := by
  rcases hh with hh | ⟨sb, ⟨a, b, d, r, h1⟩, h2⟩
  · exact .inl hh
  · exact .inr ⟨sb, ⟨a, b, d, r, hl _ h1⟩, h2⟩

theorem VoteSigned.mono {l l' : List Signed} (hl : ∀ x ∈ l, x ∈ l') {d : AttData}
    (h : VoteSigned l d) : VoteSigned l' d := by
  obtain ⟨v, sig, h⟩ := h
  exact ⟨v, sig, hl _ h⟩

theorem Clean.mono {l l' : List Signed} (hl : ∀ x ∈ l, x ∈ l') (h : Clean c t vals l') :
    Clean c t vals l :=
  { headerNZ := h.headerNZ
    stateNZ := h.stateNZ
    headers := fun a b ha hb => h.headers a b (ha.mono hl) (hb.mono hl)
    acyclic := by
      obtain ⟨rank, hr⟩ := h.acyclic
      exact ⟨rank, fun x hx => hr x (hx.mono hl)⟩
    votes := fun d d' hd hd' => h.votes d d' (hd.mono hl) (hd'.mono hl) }

theorem Idle.mono {Q Q' : Root → PEntry → Prop} {σ : Store} (h : Idle Q σ)
    (hq : ∀ r e, Q r e → Q' r e) : Idle Q' σ :=
  ⟨h.gossip, h.cap, h.newP, h.fcNew, fun x hx => hq _ _ (h.pool x hx)⟩

theorem Calm.mono {K K' : Header → Prop} {D D' : AttData → Prop} {root : Root} {anchor : State}
    {f : Nat → Root} {s : Nat} {top : State} {ops : List Db.Op} {σ : Store} (hK : ∀ h, K h → K' h)
    (hD : ∀ d, D d → D' d) (C : Calm c t vals K D root anchor f s top ops σ) :
    Calm c t vals K' D' root anchor f s top ops σ :=
  ⟨C.row.mono hK, C.time, C.safe, C.genesis,
    C.idle.mono (fun _ _ h => ⟨h.1, ⟨hD _ h.2.1.1, h.2.1.2⟩, h.2.2⟩)⟩

/-- A node that just started at genesis. -/
theorem calm_start {K : Header → Prop} (D : AttData → Prop)
    (W : World c.ctx.E t vals [] (State.fromGenesis c.ctx.E.H t vals) K) {a : Actor}
    (h : Actor.init c.ctx (State.fromGenesis c.H t vals) (some []) = .ok a) :
    ∃ root anchor, AnchorOk c.ctx.E.H (State.fromGenesis c.ctx.E.H t vals) K root anchor ∧
      Calm c t vals K D root anchor (fun _ => root) 0 anchor [] a.store := by
  unfold Actor.init at h
  split at h
  · cases h
  next σ hσ =>
  cases h
  obtain ⟨root, anchor, A, I, h1, h2, h3, h4⟩ := init_ninv W hσ
  refine ⟨root, anchor, A, ?_⟩
  unfold init at hσ
  split at hσ
  · cases hσ
  next m hm =>
  cases hσ
  obtain ⟨root', anchor', i1, -, i3, i4, i5⟩ := init_anchor hm
  have h4 : m.db.states = [(root, anchor)] := h4
  rw [h4] at i1
  cases i1
  have hs0 : anchor.slot = 0 := by rw [i3]; rfl
  have hh0 : anchor.latestBlockHeader.slot = 0 := by rw [i3]; rfl
  have hst : stateOf root anchor [] root = some anchor := I.tree.anc
  refine ⟨⟨⟨I, ⟨?_, ?_, ?_⟩, ?_⟩, h3, ?_, ?_, hst, ?_⟩, ?_, ?_, rfl, ⟨rfl, rfl, rfl, rfl, ?_⟩⟩
  · intro i hi
    obtain rfl : i = 0 := by omega
    exact ⟨_, (I.tree.own _ _ hst).2, hh0⟩
  · intro i h hi
    omega
  · intro r h hg
    rw [i5] at hg
    simp only [AMap.get?_cons, AMap.get?_nil] at hg
    split at hg
    · cases hg
      exact ⟨by omega, (‹root = r›).symm⟩
    · cases hg
  · intro i _
    exact ⟨_, hst⟩
  · rw [h1]; exact hs0
  · rw [h2]; exact hs0
  · intro st h
    rw [hst] at h
    cases h
    refine ⟨by rw [i3]; rfl, by rw [i3]; rfl, fun i hi => by omega, fun k => ?_⟩
    rw [i3]
    constructor
    · intro hk
      by_contra hne
      have : jst ([] : List Bool) 0 k = true := hk
      unfold jst at this
      rw [isSlotJustified_gt (by omega)] at this
      simp at this
    · intro hk
      exact jst_le (by omega)
  · rw [i5]
  · rw [i5]
  · intro x hx
    cases hx

theorem slotRest_prefix {n n' : VNode} {slot : Nat} {w : Times} {l l' : List Signed}
    (h : slotRest c n slot w l = .ok (n', l')) : ∀ x ∈ l, x ∈ l' := by
  unfold slotRest at h
  repeat' (split at h; · cases h)
  cases h
  intro x hx
  simp [hx]

theorem lineVotes_mem {f : Nat → Root} {s v : Nat} (hv : v ∈ c.ids) :
    Signed.vote v (lineVote f s) (c.sign v (lineVote f s)) ∈ lineVotes c f s :=
  List.mem_map.2 ⟨v, hv, rfl⟩

theorem AllDone.next (Q : Equipped c vals) {s : Nat} {l : List Signed} (h : AllDone vals s l)
    {f : Nat → Root} {r : Root} {sb : SignedBlock} (hs : sb.block.slot = s + 1) :
    AllDone vals (s + 1) (l ++ (lineVotes c f s ++
      [.block ((s + 1) % vals.length) (s + 1) r (some (sb, .ok ()))])) := by
  constructor
  · intro i hi v hv
    rcases Nat.lt_or_ge i s with hlt | hge
    · obtain ⟨d, sig, h1, h2⟩ := h.1 i hlt v hv
      exact ⟨d, sig, h1, List.mem_append_left _ h2⟩
    · obtain rfl : i = s := by omega
      obtain ⟨sig, h1, -⟩ := Q.votes v (Q.all v hv) (lineVote f i)
      refine ⟨lineVote f i, sig, rfl, List.mem_append_right _ (List.mem_append_left _ ?_)⟩
      rw [← h1]
      exact lineVotes_mem (Q.all v hv)
  · intro i hi hi'
    rcases Nat.lt_or_ge s i with hlt | hge
    · obtain rfl : i = s + 1 := by omega
      exact ⟨r, sb, hs, by simp⟩
    · obtain ⟨r, sb, h1, h2⟩ := h.2 i hi hge
      exact ⟨r, sb, h1, List.mem_append_left _ h2⟩

/-- All runs are calm. -/
theorem solo_calm (Q : Equipped c vals) (hv : 2 ≤ vals.length) (hv' : vals.length ≤ 2048)
    {L : List Signed} (hL : Clean c t vals L) {s : Nat} {n : VNode} {l : List Signed}
    (h : Solo c t vals s n l) (hs : s ≤ historicalRootsLimit) (hl : ∀ x ∈ l, x ∈ L) :
    ∃ root anchor f top ops, AnchorOk c.ctx.E.H (State.fromGenesis c.ctx.E.H t vals)
        (MadeHeader c.H (State.fromGenesis c.H t vals) L) root anchor ∧
      Calm c t vals (MadeHeader c.H (State.fromGenesis c.H t vals) L) (VoteSigned L) root anchor f s
        top ops n.actor.store ∧ AllDone vals s l := by
  induction h with
  | start gate h =>
    obtain ⟨root, anchor, h1, h2⟩ := calm_start (VoteSigned L) hL.world h
    exact ⟨root, anchor, _, _, _, h1, h2, fun i hi => by omega, fun i h1 h2 => by omega⟩
  | @slot s n n' l l' w h hw hn ih =>
    obtain ⟨root, anchor, f, top, ops, A, C, done⟩ := ih (by omega)
      (fun x hx => hl x (List.mem_append_left _ hx))
    obtain ⟨n2, ops2, e1, -⟩ := C.votes Q hL.world (by omega) hv' (by omega) hw
    have hd : VoteSigned L (lineVote f s) := by
      rw [e1] at hn
      exact ⟨0, _, hl _ (List.mem_append_right _ (slotRest_prefix hn _
        (lineVotes_mem (Q.all 0 (by omega)))))⟩
    obtain ⟨a0, sync, σ1, sb, st, e2, e3⟩ := C.slot Q hL.world A hL.votes hv hv' hs hw hd
    have hmade : MadeHeader c.H (State.fromGenesis c.H t vals) L (sb.block.header c.H) := by
      rw [e2] at hn
      split at hn
      · cases hn
      · cases hn
        refine .inr ⟨sb, ⟨_, _, _, _, hl _ (List.mem_append_right _ (List.mem_append_right _
          (List.mem_singleton_self _)))⟩, rfl⟩
    obtain ⟨σ', ops', g1, C'⟩ := e3 _ (fun _ h => h) hL.world hmade
    rw [e2, g1] at hn
    simp only [Except.ok.injEq, Prod.mk.injEq] at hn
    obtain ⟨rfl, rfl⟩ := hn
    refine ⟨root, anchor, _, _, ops', A, C', done.next Q ?_⟩
    obtain ⟨x, x1, x2⟩ := C'.row.line.mem (s + 1) (Nat.le_refl _)
    obtain ⟨k1, k2⟩ := C'.row.inv.hdrK hL.world _ _ x1
    have : x = sb.block.header c.H := hL.headers _ _ k1 hmade (by
      refine k2.trans ?_
      unfold extend
      rw [if_pos rfl]
      rfl)
    rw [this] at x2
    exact x2

end
end Verif.Node
