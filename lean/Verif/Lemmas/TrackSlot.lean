import Verif.Lemmas.TrackPropose
import Verif.Model.Roles
/-!
# A whole slot on the track
-/
namespace Verif.Node
open Verif Verif.Db Verif.Sync Verif.Votes Verif.Buffers Verif.Build

theorem slotAs_true (c : VCtx) (n : VNode) (slot : Nat) (w : Times) :
    n.slotAs c true slot w = n.slot c slot w := by
  unfold VNode.slotAs VNode.slot
  rfl

section
variable {c : VCtx} {t : Nat} {vals : List Validator} {K : Header → Prop} {root : Root}
  {anchor : State} {f : Nat → Root} {s : Nat} {top : State} {ops : List Db.Op}

/-- A node at the start of slot `s` on the line `f`, whose safe target is the block of slot `z`. All
votes it keeps have a target that is justified. -/
structure Paced (c : VCtx) (t : Nat) (vals : List Validator) (K : Header → Prop)
    (D : AttData → Prop) (root : Root) (anchor : State) (f : Nat → Root) (s z : Nat) (top : State)
    (ops : List Db.Op) (σ : Store) : Prop where
  track : Track c.ctx.E t vals K root anchor f s top ops σ
  time : σ.mem.db.time = 5 * s
  safe : σ.mem.db.safeTarget = f z
  low : z ≤ s
  genesis : σ.genesisTime = t
  rested : Rested
    (fun d => D d ∧ d.slot < s ∧ 1 ≤ d.target.slot ∧
      jst top.justifiedSlots top.latestFinalized.slot d.target.slot = true)
    (Proved c vals (fun d => D d ∧ d.slot < s ∧
      jst top.justifiedSlots top.latestFinalized.slot d.target.slot = true)) σ

/-- What follows the votes of a slot. -/
def slotRestAs (c : VCtx) (agg : Bool) (n : VNode) (slot : Nat) (w : Times) (l : List Signed) :
    P (VNode × List Signed) :=
  match n.tick c w.aggregation agg with
  | .error e => .error e
  | .ok (n, l2) =>
  match (if agg then n.session c slot else .ok (n, [])) with
  | .error e => .error e
  | .ok (n, _) =>
  match n.tick c w.safeTarget agg with
  | .error e => .error e
  | .ok (n, l3) =>
  match n.tick c w.endOfSlot agg with
  | .error e => .error e
  | .ok (n, l4) => .ok (n, l ++ l2 ++ l3 ++ l4)

/-- The vote of a slot. -/
def trackVote (f : Nat → Root) (s z : Nat) (top : State) : AttData :=
  voteOn f s top.latestJustified.slot (paceOf s z top).aim

/-- The votes of a slot. -/
def trackVotes (c : VCtx) (f : Nat → Root) (s z : Nat) (top : State) : List Signed :=
  c.ids.map (fun v => .vote v (trackVote f s z top) (c.sign v (trackVote f s z top)))

/-- The vote of the slot is new to the buffers. -/
theorem Paced.fresh {D : AttData → Prop}
    (hinj : ∀ d d', D d → D d' → c.H.attData d = c.H.attData d' → d = d') {z : Nat} {σ : Store}
    (C : Paced c t vals K D root anchor f s z top ops σ) (hd : D (trackVote f s z top)) :
    σ.gossip.data.get? (c.H.attData (trackVote f s z top)) = none ∧
      σ.knownP.data.get? (c.H.attData (trackVote f s z top)) = none := by
  have key : ∀ d, D d → d.slot < s → c.H.attData d ≠ c.H.attData (trackVote f s z top) := by
    intro d h1 h2 h3
    have := hinj _ _ h1 hd h3
    rw [this] at h2
    exact absurd h2 (Nat.lt_irrefl _)
  constructor
  · cases hx : σ.gossip.data.get? (c.H.attData (trackVote f s z top)) with
    | none => rfl
    | some e =>
      obtain ⟨x1, x2, -⟩ := C.rested.gossip.get hx
      exact absurd (C.track.inv.buf.gossip.ok _ _ hx).1 (key _ x1 x2)
  · cases hx : σ.knownP.data.get? (c.H.attData (trackVote f s z top)) with
    | none => rfl
    | some e =>
      obtain ⟨x1, x2, -⟩ := C.rested.pool.get hx
      exact absurd x1 (key _ x2.1 x2.2.1)

theorem signVotes_has {d : AttData} {agg : Bool} {v : Nat} : ∀ (vs : List Nat) {σ σ' : Store}
    {l : List Signed}, signVotes c d agg vs σ = .ok (σ', l) → v ∈ vs →
    Signed.vote v d (c.sign v d) ∈ l
  | [], _, _, _, _, hv => by cases hv
  | w :: vs, σ, σ', l, h, hv => by
    unfold signVotes at h
    split at h
    next hn =>
      split at h
      · cases h
      next h' =>
        cases h
        rcases List.mem_cons.1 hv with rfl | hv
        · rw [hn]; exact List.mem_cons_self
        · exact List.mem_cons_of_mem _ (signVotes_has vs h' hv)
    next hn =>
      split at h
      · cases h
      · split at h
        · cases h
        next h' =>
          cases h
          rcases List.mem_cons.1 hv with rfl | hv
          · rw [hn]; exact List.mem_cons_self
          · exact List.mem_cons_of_mem _ (signVotes_has vs h' hv)

/-- Every key is asked for the vote of the slot. -/
theorem Paced.asked (W : World c.ctx.E t vals [] (State.fromGenesis c.ctx.E.H t vals) K)
    {D : AttData → Prop} {n n' : VNode} {z : Nat} {agg : Bool} {l' : List Signed}
    (C : Paced c t vals K D root anchor f s z top ops n.actor.store) (hv : 0 < vals.length)
    {w : Times} (hw : OnTime t s w) (h : n.slotAs c agg s w = .ok (n', l')) {v : Nat}
    (hvid : v ∈ c.ids) :
    Signed.vote v (trackVote f s z top) (c.sign v (trackVote f s z top)) ∈ l' := by
  have a1 := C.track.pubTick (c := c) (now := w.publication)
    (by rw [C.genesis]; exact hw.publication) C.time agg
  obtain ⟨sync, σ1, ops1, h1, h2, h3, R1, h4⟩ := C.track.tick W hv (j := 1) (by omega) (by omega) agg
    (i := .attestation) rfl (now := w.attestation) (by rw [C.genesis]; exact hw.attestation)
    (by rw [C.time])
  have R2 := R1.setTime (5 * s + 1)
  obtain ⟨σ3, ops3, p1, p2, p3, R3⟩ := R2.produce W C.low (by
    show σ1.mem.db.safeTarget = _
    rw [h2]; exact C.safe)
  simp only [duty, actorDuty, h1, if_true, produceVotes] at h4
  rw [p1] at h4
  simp only at h4
  unfold VNode.slotAs at h
  rw [a1] at h
  simp only at h
  rw [h4] at h
  cases e : signVotes c (voteOn f s top.latestJustified.slot (paceOf s z top).aim) agg c.ids σ3 with
  | error x => rw [e] at h; cases h
  | ok x =>
    obtain ⟨σ4, l1⟩ := x
    have := signVotes_has _ e hvid
    rw [e] at h
    simp only at h
    repeat' (split at h; · cases h)
    cases h
    simp only [List.nil_append, List.append_assoc]
    exact List.mem_append_left _ this

theorem OldOnly.all {S : AttData → Prop} {σ : Store}
    (R : Track c.ctx.E t vals K root anchor f s top ops σ) (h : OldOnly S σ.gossip) :
    All (fun _ e => S e.data) σ.gossip.data := by
  intro x hx
  exact h x.1 x.2 (AMap.get?_of_mem R.inv.buf.gossip.keys hx)

/-- The first half of a slot: up to and with the session. -/
theorem Paced.first (Q : Equipped c vals)
    (W : World c.ctx.E t vals [] (State.fromGenesis c.ctx.E.H t vals) K)
    (A : AnchorOk c.ctx.E.H (State.fromGenesis c.ctx.E.H t vals) K root anchor)
    {D : AttData → Prop} (hinj : ∀ d d', D d → D d' → c.H.attData d = c.H.attData d' → d = d')
    {n : VNode} {z : Nat} (C : Paced c t vals K D root anchor f s z top ops n.actor.store)
    (hv : 2 ≤ vals.length) (hv' : vals.length ≤ 2048) (hlim : s + 1 ≤ historicalRootsLimit)
    {w : Times} (hw : OnTime t s w) {d : AttData} (hdd : d = trackVote f s z top) (hd : D d)
    (agg : Bool) :
    ∃ (n' : VNode) (ops' : List Db.Op) (a : Agg),
      n.slotAs c agg s w = (match n'.tick c w.safeTarget agg with
        | .error e => .error e
        | .ok (n, l3) =>
        match n.tick c w.endOfSlot agg with
        | .error e => .error e
        | .ok (n, l4) => .ok (n, trackVotes c f s z top ++ l3 ++ l4)) ∧
      n'.actor.store.mem.db.time = 5 * s + 2 ∧
      n'.actor.store.knownP = n.actor.store.knownP ∧ n'.actor.store.genesisTime = t ∧
      All (fun _ e => D e.data ∧ e.data.slot < s + 1 ∧ 1 ≤ e.data.target.slot ∧
        jst top.justifiedSlots top.latestFinalized.slot e.data.target.slot = true)
        n'.actor.store.gossip.data ∧
      n'.actor.store.gossip.capacity = 2048 ∧
      Track c.ctx.E t vals K root anchor f s top ops' n'.actor.store ∧
      ((agg = true ∧ top.latestJustified.slot < (paceOf s z top).aim ∧
          n'.actor.store.newP.data = [(c.H.attData d, ⟨d, [a]⟩)] ∧
          (∀ v, v < vals.length → In v a) ∧ ValidAgg c.X c.H vals d a ∧
          (∀ v, v < vals.length → v ∈ n'.actor.store.fc.new.keys) ∧
          (∀ e ∈ n'.actor.store.fc.new, e.2 = d)) ∨
        (¬ (agg = true ∧ top.latestJustified.slot < (paceOf s z top).aim) ∧
          n'.actor.store.newP.data = [] ∧ n'.actor.store.fc.new = [])) := by
  have hl : historicalRootsLimit = 262144 := rfl
  have a1 := C.track.pubTick (c := c) (now := w.publication)
    (by rw [C.genesis]; exact hw.publication) C.time agg
  obtain ⟨hf1, hf2⟩ := C.fresh hinj (hdd ▸ hd)
  rw [← hdd] at hf1 hf2
  obtain ⟨n2, ops2, b1, -, b2, b3, b4, b5, b6, b7, R2, b8, b9⟩ := C.track.voteTick Q.toAble W
    (by omega) (by rw [C.rested.cap]; exact hv') (by omega) (now := w.attestation)
    (by rw [C.genesis]; exact hw.attestation) C.time C.low C.safe hdd
    (S := fun d => D d ∧ d.slot < s ∧ 1 ≤ d.target.slot ∧
      jst top.justifiedSlots top.latestFinalized.slot d.target.slot = true)
    (fun r e h => C.rested.gossip.get h) hf1 agg
  obtain ⟨n3, ops3, c1, -, c2, c3, R3⟩ := R2.aggTick W (by omega) (now := w.aggregation)
    (by rw [b6, C.genesis]; exact hw.aggregation) (by rw [b2]) agg
  have hds : d.slot = s := by rw [hdd]; rfl
  have hdt : d.target.slot = (paceOf s z top).aim := by rw [hdd]; rfl
  have hnew : n3.actor.store.newP.data = [] := by rw [c3.newP, b4]; exact C.rested.newP
  have hfc : n3.actor.store.fc.new = [] := by rw [c3.fc, b3]; exact C.rested.fcNew
  have hcap : n3.actor.store.gossip.capacity = 2048 := by rw [c3.gossip, b7, C.rested.cap]
  have hknown : n3.actor.store.knownP = n.actor.store.knownP := by rw [c3.knownP, b5]
  have hgen : n3.actor.store.genesisTime = t := by rw [c3.genesis, b6, C.genesis]
  have hvotes : c.ids.map (fun v => Signed.vote v d (c.sign v d)) = trackVotes c f s z top := by
    rw [hdd]; rfl
  have hslot : n.slotAs c agg s w =
      (match (if agg then n3.session c s else .ok (n3, [])) with
      | .error e => .error e
      | .ok (n, _) =>
      match n.tick c w.safeTarget agg with
      | .error e => .error e
      | .ok (n, l3) =>
      match n.tick c w.endOfSlot agg with
      | .error e => .error e
      | .ok (n, l4) => .ok (n, trackVotes c f s z top ++ l3 ++ l4)) := by
    unfold VNode.slotAs
    rw [a1]
    simp only
    rw [b1]
    simp only
    rw [c1]
    simp only [hvotes, List.nil_append, List.append_nil]
    rfl
  rw [hslot]
  have hold : ∀ x : AttData, (D x ∧ x.slot < s ∧ 1 ≤ x.target.slot ∧
      jst top.justifiedSlots top.latestFinalized.slot x.target.slot = true) →
      D x ∧ x.slot < s + 1 ∧ 1 ≤ x.target.slot ∧
      jst top.justifiedSlots top.latestFinalized.slot x.target.slot = true :=
    fun x h => ⟨h.1, Nat.lt_succ_of_lt h.2.1, h.2.2⟩
  cases agg with
  | false =>
    refine ⟨n3, ops3, ⟨[], 0⟩, rfl, by rw [c2], hknown, hgen, ?_, hcap, R3,
      .inr ⟨(by rintro ⟨h, -⟩; cases h), hnew, hfc⟩⟩
    rw [c3.gossip, b8 rfl]
    exact fun x hx => hold _ (C.rested.gossip x hx)
  | true =>
    have hG := b9 rfl
    rw [← c3.gossip] at hG
    by_cases hlt : top.latestJustified.slot < (paceOf s z top).aim
    · obtain ⟨n4, ops4, a, d1, -, d2, d3, d4, d5, d6, d7, d8, d9, d10, d11, R4⟩ := R3.session
        Q.toAble W A hv (by show _ ≤ 4096; omega) (by omega) (by omega) (vs := c.ids)
        (fun v => ⟨Q.mine v, Q.all v⟩) C.low hlt hdd
        (fun x hx => hx.2.2) hG hnew hfc (by rw [hknown]; exact hf2)
      refine ⟨n4, ops4, a, ?_, by rw [d2, c2], by rw [d3, hknown], by rw [d4, hgen], ?_,
        by rw [d6, hcap], R4, .inl ⟨rfl, hlt, d7, d8, d9, d10, d11⟩⟩
      · rw [if_pos rfl, d1]
      · exact fun x hx => hold _ (OldOnly.all R4 d5 x hx)
    · have hje : (paceOf s z top).aim = top.latestJustified.slot :=
        Nat.le_antisymm (Nat.le_of_not_lt hlt) (paceOf s z top).just_le
      have hall : ∀ r e, n3.actor.store.gossip.data.get? r = some e → D e.data ∧
          e.data.slot < s + 1 ∧ 1 ≤ e.data.target.slot ∧
          jst top.justifiedSlots top.latestFinalized.slot e.data.target.slot = true := by
        intro r e hr
        by_cases hrd : r = c.H.attData d
        · rcases hG.2 with ⟨h, -⟩ | ⟨-, sigs, pre, h, -⟩
          · have := Q.all 0 (by omega)
            rw [h] at this
            cases this
          · rw [hrd, h] at hr
            cases hr
            refine ⟨hd, ?_, ?_, ?_⟩
            · show d.slot < s + 1
              omega
            · show 1 ≤ d.target.slot
              rw [hdt, hje]; exact C.track.pos
            · show jst _ _ d.target.slot = true
              rw [hdt, hje]; exact C.track.isJust
        · exact hold _ (hG.1 r e hr hrd)
      obtain ⟨n4, ops4, d1, d2, d3, R4⟩ := R3.sessionNone W (fun r e h => (hall r e h).2.2) hnew
      refine ⟨n4, ops4, ⟨[], 0⟩, ?_, by rw [d2, c2], by rw [d3.knownP, hknown],
        by rw [d3.genesis, hgen], ?_, by rw [d3.gossip, hcap], R4,
        .inr ⟨fun h => hlt h.2, by rw [d3.newP, hnew], by rw [d3.fc, hfc]⟩⟩
      · rw [if_pos rfl, d1]
      · rw [d3.gossip]
        exact OldOnly.all (S := fun d => D d ∧ d.slot < s + 1 ∧ 1 ≤ d.target.slot ∧
          jst top.justifiedSlots top.latestFinalized.slot d.target.slot = true) R3 hall

/-- The last tick of a slot: the votes, if any, become known, and the node goes on to make the next
block. -/
theorem Track.endTick (Q : Able c vals)
    (W : World c.ctx.E t vals [] (State.fromGenesis c.ctx.E.H t vals) K)
    (A : AnchorOk c.ctx.E.H (State.fromGenesis c.ctx.E.H t vals) K root anchor) {n : VNode}
    (R : Track c.ctx.E t vals K root anchor f s top ops n.actor.store) (hv : 0 < vals.length)
    (hmine : (s + 1) % vals.length ∈ c.ids)
    (hvl : vals.length ≤ validatorRegistryLimit) (hlim : s + 1 ≤ historicalRootsLimit)
    {now : Nat} (hnow : (now - n.actor.store.genesisTime * 1000) / 800 = 5 * s + 4)
    (htime : n.actor.store.mem.db.time = 5 * s + 3)
    {D S : AttData → Prop} (hinj : ∀ d d', D d → D d' → c.H.attData d = c.H.attData d' → d = d')
    (hg : All (fun _ e => S e.data) n.actor.store.gossip.data)
    (hcap : n.actor.store.gossip.capacity = 2048)
    (hk : All (Proved c vals D) n.actor.store.knownP.data) {P : Prop} {u : Nat} {d : AttData}
    (hvote : d = voteOn f s top.latestJustified.slot u)
    (hP : P → top.latestJustified.slot < u ∧ u ≤ s ∧
      slotIsJustifiableAfter u top.latestFinalized.slot = true)
    (hD : ∀ x, D x → jst top.justifiedSlots top.latestFinalized.slot x.target.slot = true ∨
      P ∧ x = d) {a : Agg}
    (hcase : (P ∧ D d ∧ n.actor.store.newP.data = [(c.H.attData d, ⟨d, [a]⟩)] ∧
        (∀ v, v < vals.length → In v a) ∧ ValidAgg c.X c.H vals d a ∧
        n.actor.store.knownP.data.get? (c.H.attData d) = none) ∨
      (¬ P ∧ n.actor.store.newP.data = [] ∧ n.actor.store.fc.new = [])) (agg : Bool) :
    ∃ (sync : Tracker) (σ1 : Store) (sb : SignedBlock) (st : State),
      NextStep c.ctx.E f s top st sb ∧ Moved top d P st ∧ (P → st.latestJustified.slot = u) ∧
      n.tick c now agg =
        (match onBlock c.ctx.E σ1 sb with
        | .error e => .error e
        | .ok (σ', r) => .ok (⟨{ n.actor with store := σ' }, sync⟩,
            [.block ((s + 1) % vals.length) (s + 1) (sb.block.root c.H) (some (sb, r))])) ∧
      ∀ K' : Header → Prop, (∀ h, K h → K' h) →
        World c.ctx.E t vals [] (State.fromGenesis c.ctx.E.H t vals) K' →
        K' (sb.block.header c.H) →
        ∃ σ' ops', onBlock c.ctx.E σ1 sb = .ok (σ', .ok ()) ∧
          Track c.ctx.E t vals K' root anchor (extend f s (sb.block.root c.H)) (s + 1) st ops' σ' ∧
          σ'.mem.db.time = 5 * (s + 1) ∧ σ'.mem.db.safeTarget = n.actor.store.mem.db.safeTarget ∧
          σ'.genesisTime = n.actor.store.genesisTime ∧ Rested S (Proved c vals D) σ' := by
  have hl : historicalRootsLimit = 262144 := rfl
  obtain ⟨sync, σ1, ops1, h1, h2, h3, R1, h4⟩ := R.tick W hv (j := 4) (by omega) (by omega) agg
    (i := .endOfSlot) rfl hnow (by omega)
  have acc : ∃ σ2 ops2, acceptNew c.H (σ1.setTime (5 * s + 4)) = .ok σ2 ∧
      (P → σ2.knownP.data.get? (c.H.attData d) = some ⟨d, [a]⟩ ∧
        ∀ w, w < vals.length → In w a) ∧
      σ2.mem.db.time = 5 * s + 4 ∧ σ2.mem.db.safeTarget = n.actor.store.mem.db.safeTarget ∧
      σ2.genesisTime = n.actor.store.genesisTime ∧ Rested S (Proved c vals D) σ2 ∧
      Track c.ctx.E t vals K root anchor f s top ops2 σ2 := by
    have hgen : (σ1.setTime (5 * s + 4)).genesisTime = n.actor.store.genesisTime := h3.genesis
    have hsafe : (σ1.setTime (5 * s + 4)).mem.db.safeTarget = n.actor.store.mem.db.safeTarget := by
      show σ1.mem.db.safeTarget = _
      rw [h2]
    have hg' : All (fun _ e => S e.data) (σ1.setTime (5 * s + 4)).gossip.data := by
      show All _ σ1.gossip.data; rw [h3.gossip]; exact hg
    have hcap' : (σ1.setTime (5 * s + 4)).gossip.capacity = 2048 := by
      show σ1.gossip.capacity = _; rw [h3.gossip]; exact hcap
    have hk' : All (Proved c vals D) (σ1.setTime (5 * s + 4)).knownP.data := by
      show All _ σ1.knownP.data; rw [h3.knownP]; exact hk
    rcases hcase with ⟨p0, p1, p2, p3, p4, p5⟩ | ⟨p0, p1, p2⟩
    · obtain ⟨σ2, ops2, a1, a2, a3, a4, a5, I2, R2⟩ := (R1.setTime (5 * s + 4)).acceptOne W A
        (P := fun d g => ValidAgg c.X c.H vals d g ∧ d.slot < 2 ^ 32) hinj p1
        ⟨p4, by rw [hvote]; show s < 2 ^ 32; omega⟩ hg' hcap'
        (by show σ1.newP.data = _; rw [h3.newP]; exact p2) hk'
        (by show σ1.knownP.data.get? _ = none; rw [h3.knownP]; exact p5)
      exact ⟨σ2, ops2, a1, fun _ => ⟨a2, p3⟩, by rw [a3]; rfl, by rw [a4, hsafe], by rw [a5, hgen],
        I2, R2⟩
    · obtain ⟨σ2, ops2, a1, a2, a3, a4, a5, I2, R2⟩ := (R1.setTime (5 * s + 4)).acceptEmpty W A
        (S := S) (Q := Proved c vals D) ⟨hg', hcap',
          by show σ1.newP.data = _; rw [h3.newP]; exact p1,
          by show σ1.fc.new = _; rw [h3.fc]; exact p2, hk'⟩
      exact ⟨σ2, ops2, a1, fun h => absurd h p0, by rw [a3]; rfl, by rw [a4, hsafe],
        by rw [a5, hgen], I2, R2⟩
  obtain ⟨σ2, ops2, a1, a2, a3, a4, a5, I2, R2⟩ := acc
  obtain ⟨σ3, ops3, o1, o2, o3, R3⟩ := R2.ourProposer W (s + 1)
  obtain ⟨σ4, sb, st, N, M, hu, p1, p2⟩ := R3.propose Q W A hv hmine hvl hlim (D := D)
    (o3.rested I2) hvote hP hD (by rw [o2]; exact a3) (a := a) (by rw [o3.knownP]; exact a2)
  refine ⟨sync, σ4, sb, st, N, M, hu, ?_, ?_⟩
  · rw [h4]
    simp only [duty, a1, actorDuty, o1, h1, if_true, find_proposer hv hmine]
    rw [p1]
    cases onBlock c.ctx.E σ4 sb with
    | error e => rfl
    | ok x => rfl
  · intro K' hK W' hk
    obtain ⟨σ', ops', q1, q2, q3, q4, q5, q6⟩ := p2 K' hK W' hk
    exact ⟨σ', ops', q1, q2, q3, by rw [q4, o2, a4], by rw [q5, o3.genesis, a5], q6⟩

/-- The pace of the next slot. -/
theorem moved_pace {z : Nat} {st : State} {agg : Bool} {d : AttData}
    (hd : d = trackVote f s z top)
    (M : Moved top d (agg = true ∧ top.latestJustified.slot < (paceOf s z top).aim) st)
    (hu : agg = true ∧ top.latestJustified.slot < (paceOf s z top).aim →
      st.latestJustified.slot = (paceOf s z top).aim) :
    ∃ z', paceOf (s + 1) z' st = (paceOf s z top).step agg ∧
      z' = if agg = true ∧ top.latestJustified.slot < (paceOf s z top).aim then s
        else top.latestJustified.slot := by
  refine ⟨_, ?_, rfl⟩
  by_cases hP : agg = true ∧ top.latestJustified.slot < (paceOf s z top).aim
  · have hj := hu hP
    cases M with
    | still h1 h2 h3 => omega
    | up h1 h2 h3 h4 h5 h6 =>
      unfold Pace.step
      rw [if_pos hP, if_pos (show agg = true ∧ (paceOf s z top).just < (paceOf s z top).aim from hP)]
      have hf : st.latestFinalized.slot = if (paceOf s z top).closes = true then (paceOf s z top).just
          else (paceOf s z top).fin := by
        rw [h3, hd]
        show (if (List.range' ((paceOf s z top).just + 1) ((paceOf s z top).aim -
          ((paceOf s z top).just + 1))).any _ = true then _ else _) = _
        unfold Pace.closes
        cases hb : (List.range' ((paceOf s z top).just + 1) ((paceOf s z top).aim -
          ((paceOf s z top).just + 1))).any
          (fun k => slotIsJustifiableAfter k (paceOf s z top).fin) with
        | true =>
          have hb' : (List.range' ((paceOf s z top).just + 1) ((paceOf s z top).aim -
            ((paceOf s z top).just + 1))).any
            (fun k => slotIsJustifiableAfter k top.latestFinalized.slot) = true := hb
          rw [if_pos hb']; rfl
        | false =>
          have hb' : ¬ (List.range' ((paceOf s z top).just + 1) ((paceOf s z top).aim -
            ((paceOf s z top).just + 1))).any
            (fun k => slotIsJustifiableAfter k top.latestFinalized.slot) = true := by
            intro h
            have hb : (List.range' ((paceOf s z top).just + 1) ((paceOf s z top).aim -
              ((paceOf s z top).just + 1))).any
              (fun k => slotIsJustifiableAfter k top.latestFinalized.slot) = false := hb
            rw [hb] at h; cases h
          rw [if_neg hb']; rfl
      show Pace.mk (s + 1) st.latestJustified.slot st.latestFinalized.slot s = _
      rw [hj, hf]
      rfl
  · cases M with
    | up h1 => exact absurd h1 hP
    | still h1 h2 h3 =>
      unfold Pace.step
      rw [if_neg hP, if_neg (show ¬ (agg = true ∧ (paceOf s z top).just < (paceOf s z top).aim) from hP)]
      show Pace.mk (s + 1) st.latestJustified.slot st.latestFinalized.slot _ = _
      rw [h1, h2]
      rfl

theorem moved_keeps {d : AttData} {P : Prop} {st : State} (M : Moved top d P st) {k : Nat}
    (h : jst top.justifiedSlots top.latestFinalized.slot k = true) :
    jst st.justifiedSlots st.latestFinalized.slot k = true := by
  cases M with
  | still h1 h2 h3 => rw [h3]; exact h
  | up h1 h2 h3 h4 h5 h6 => exact h4 k h

theorem Paced.slot (Q : Equipped c vals)
    (W : World c.ctx.E t vals [] (State.fromGenesis c.ctx.E.H t vals) K)
    (A : AnchorOk c.ctx.E.H (State.fromGenesis c.ctx.E.H t vals) K root anchor)
    {D : AttData → Prop} (hinj : ∀ d d', D d → D d' → c.H.attData d = c.H.attData d' → d = d')
    {n : VNode} {z : Nat} (C : Paced c t vals K D root anchor f s z top ops n.actor.store)
    (hv : 2 ≤ vals.length) (hv' : vals.length ≤ 2048) (hlim : s + 1 ≤ historicalRootsLimit)
    {w : Times} (hw : OnTime t s w) (hd : D (trackVote f s z top)) (agg : Bool) :
    ∃ (a0 : Actor) (sync : Tracker) (σ1 : Store) (sb : SignedBlock) (st : State) (z' : Nat),
      paceOf (s + 1) z' st = (paceOf s z top).step agg ∧ sb.block.slot = s + 1 ∧
      n.slotAs c agg s w =
        (match onBlock c.ctx.E σ1 sb with
        | .error e => .error e
        | .ok (σ', r) => .ok (⟨{ a0 with store := σ' }, sync⟩, trackVotes c f s z top ++
            [.block ((s + 1) % vals.length) (s + 1) (sb.block.root c.H) (some (sb, r))])) ∧
      ∀ K' : Header → Prop, (∀ h, K h → K' h) →
        World c.ctx.E t vals [] (State.fromGenesis c.ctx.E.H t vals) K' →
        K' (sb.block.header c.H) →
        ∃ σ' ops', onBlock c.ctx.E σ1 sb = .ok (σ', .ok ()) ∧
          Paced c t vals K' D root anchor (extend f s (sb.block.root c.H)) (s + 1) z' st ops' σ' := by
  have hl : historicalRootsLimit = 262144 := rfl
  obtain ⟨hf1, hf2⟩ := C.fresh hinj hd
  obtain ⟨n4, ops4, a, d1, d2, d3, d4, d5, d6, R4, d7⟩ := C.first Q W A hinj hv hv' hlim hw rfl hd agg
  have ho := C.track.order
  obtain ⟨zz, hzz⟩ : ∃ zz, zz = if agg = true ∧ top.latestJustified.slot < (paceOf s z top).aim then s
    else top.latestJustified.slot := ⟨_, rfl⟩
  obtain ⟨n5, ops5, e1, -, e2, e3, e4, R5⟩ := R4.safeTick W (by omega) (now := w.safeTarget)
    (by rw [d4]; exact hw.safeTarget) d2 (z := zz) (by
      rcases d7 with ⟨p1, p2, -, -, -, p3, p4⟩ | ⟨p1, -, p2⟩
      · refine .inl ⟨by rw [hzz, if_pos ⟨p1, p2⟩], p3, fun e he => ?_⟩
        rw [p4 e he]; rfl
      · exact .inr ⟨by rw [hzz, if_neg p1], p2⟩) agg
  have hknown : n5.actor.store.knownP = n.actor.store.knownP := by rw [e4.knownP, d3]
  have hgen : n5.actor.store.genesisTime = t := by rw [e4.genesis, d4]
  have hus := Pace.aim_le (p := paceOf s z top) (Nat.le_of_lt C.track.order.2) C.low
  obtain ⟨sync, σ1, sb, st, N, M, hu, g1, g2⟩ := R5.endTick Q.toAble W A (by omega)
    (Q.all _ (Nat.mod_lt _ (by omega))) (by show _ ≤ 4096; omega) hlim
    (now := w.endOfSlot) (by rw [hgen]; exact hw.endOfSlot) e2
    (D := fun d => D d ∧ d.slot < s + 1 ∧
      (jst top.justifiedSlots top.latestFinalized.slot d.target.slot = true ∨
        (agg = true ∧ top.latestJustified.slot < (paceOf s z top).aim) ∧ d = trackVote f s z top))
    (S := fun d => D d ∧ d.slot < s + 1 ∧ 1 ≤ d.target.slot ∧
      jst top.justifiedSlots top.latestFinalized.slot d.target.slot = true)
    (fun d d' h h' => hinj d d' h.1 h'.1)
    (by rw [e4.gossip]; exact d5) (by rw [e4.gossip]; exact d6)
    (by
      rw [hknown]
      intro x hx
      obtain ⟨x1, x2, x3⟩ := C.rested.pool x hx
      exact ⟨x1, ⟨x2.1, Nat.lt_succ_of_lt x2.2.1, .inl x2.2.2⟩, x3⟩)
    (P := agg = true ∧ top.latestJustified.slot < (paceOf s z top).aim)
    (u := (paceOf s z top).aim) (d := trackVote f s z top) rfl
    (fun h => ⟨h.2, hus, aim_justifiable ho.1 h.2⟩) (fun x h => h.2.2) (a := a)
    (by
      rcases d7 with ⟨p1, p2, p3, p4, p5, -⟩ | ⟨p1, p2, p3⟩
      · exact .inl ⟨⟨p1, p2⟩, ⟨hd, Nat.lt_succ_self _, .inr ⟨⟨p1, p2⟩, rfl⟩⟩,
          by rw [e4.newP]; exact p3, p4, p5, by rw [hknown]; exact hf2⟩
      · exact .inr ⟨p1, by rw [e4.newP]; exact p2, by rw [e4.fc]; exact p3⟩) agg
  obtain ⟨z', hz1, hz2⟩ := moved_pace rfl M hu
  have hzz' : zz = z' := by rw [hzz, hz2]
  have hzs : zz ≤ s := by rw [hzz]; split <;> omega
  refine ⟨n5.actor, sync, σ1, sb, st, z', hz1, N.slot, ?_, ?_⟩
  · rw [d1]
    rw [e1]
    simp only
    rw [g1]
    cases onBlock c.ctx.E σ1 sb with
    | error e => rfl
    | ok x => simp
  · intro K' hK W' hk
    obtain ⟨σ', ops', q1, q2, q3, q4, q5, q6⟩ := g2 K' hK W' hk
    refine ⟨σ', ops', q1, q2, q3, ?_, by omega, by rw [q5, hgen], q6.mono ?_ ?_⟩
    · rw [q4, e3, ← hzz']
      unfold extend
      rw [if_neg (by omega)]
    · exact fun x hx => ⟨hx.1, hx.2.1, hx.2.2.1, moved_keeps M hx.2.2.2⟩
    · intro r e h
      refine ⟨h.1, ⟨h.2.1.1, h.2.1.2.1, ?_⟩, h.2.2⟩
      rcases h.2.1.2.2 with h' | ⟨h1, h2⟩
      · exact moved_keeps M h'
      · cases M with
        | still m1 m2 m3 =>
          have := hu h1
          omega
        | up m1 m2 m3 m4 m5 m6 => rw [h2]; exact m5

end
end Verif.Node
