import Verif.Lemmas.HeldBuffers
import Verif.Lemmas.Delivery
import Verif.Lemmas.Verified
/-!
# Conditions on the votes and proofs a store holds are kept by every event

`D` is which votes occur, `P` what is asked of an aggregate, `G` of a gossiped signature, `V` of a
vote that fork choice sees.
-/
namespace Verif.Node
open Verif Verif.Db Verif.Votes Verif.Buffers

/-- Everything the store holds in memory is as asked. -/
structure Held (H : Hash) (D : AttData → Prop) (P : AttData → Agg → Prop)
    (G : Nat → AttData → Nat → Prop) (V : Nat → AttData → Prop) (s : Store) : Prop where
  newP : All (PQ H D P) s.newP.data
  knownP : All (PQ H D P) s.knownP.data
  gossip : All (GQ H D G) s.gossip.data
  fcNew : AllV V s.fc.new
  fcKnown : AllV V s.fc.known

/-- What is asked follows from the checks the node makes. -/
structure Laws (c : Ctx) (vals : List Validator) (S : SignedBlock → Prop) (D : AttData → Prop)
    (P : AttData → Agg → Prop) (G : Nat → AttData → Nat → Prop) (V : Nat → AttData → Prop) :
    Prop where
  /-- The hash does not collide on the votes that occur. -/
  inj : ∀ d d', D d → D d' → c.E.H.attData d = c.E.H.attData d' → d = d'
  att : ∀ v d sig val, D d → vals[v]? = some val →
    c.E.verifySig val.attestationPubkey d.slot (c.E.H.attData d) sig = true → G v d sig
  agg : ∀ d (a : Agg), D d → validatorIndices a.participants ≠ [] →
    (∀ v ∈ validatorIndices a.participants, v < vals.length) →
    c.E.verifyAgg a ((validatorIndices a.participants).map
      (fun v => (vals.getD v default).attestationPubkey)) (c.E.H.attData d) d.slot = true → P d a
  votes : ∀ d g, P d g → ∀ v : Nat, g.participants[v]? = some true → V v d
  block : ∀ p sb, p.validators = vals → c.E.verifyBlock p sb = true → ∀ a ∈ sb.block.body,
    ∀ v : Nat, a.bits[v]? = some true → V v a.data
  empty : ∀ sb, S sb → c.E.H.body sb.block.body = c.E.H.body [] → sb.block.body = []
  reagg : ∀ s s1 p sb sb', Held c.E.H D P G V s → p.validators = vals →
    s.getState sb.block.parentRoot = .ok (some p, s1) → S sb → S sb' →
    sb.block.header c.E.H = sb'.block.header c.E.H → c.E.verifyBlock p sb' = true →
    ∀ x ∈ c.reagg s sb, D x.1 ∧ P x.1 x.2

/-- What is asked of the events. -/
def EventOk (S : SignedBlock → Prop) (D : AttData → Prop) (P : AttData → Agg → Prop) : Event → Prop
  | .block sb => S sb
  | .own sb => S sb
  | .attestation _ d _ _ => D d
  | .aggregate d _ => D d
  | .ownAggregate d a _ => D d ∧ P d a
  | _ => True

section
variable {H : Hash} {D : AttData → Prop} {P : AttData → Agg → Prop}
  {G : Nat → AttData → Nat → Prop} {V : Nat → AttData → Prop} {s s' : Store}

theorem Held.congr (h : Held H D P G V s) (h1 : s'.newP = s.newP) (h2 : s'.knownP = s.knownP)
    (h3 : s'.gossip = s.gossip) (h4 : s'.fc = s.fc) : Held H D P G V s' :=
  ⟨by rw [h1]; exact h.newP, by rw [h2]; exact h.knownP, by rw [h3]; exact h.gossip,
   by rw [h4]; exact h.fcNew, by rw [h4]; exact h.fcKnown⟩

theorem held_fresh (m : Mem) (gt : Nat) : Held H D P G V
    { mem := m, fc := ⟨[], []⟩, newP := PayloadBuffer.new 64, knownP := PayloadBuffer.new 512
      gossip := GossipBuffer.new 2048, genesisTime := gt } :=
  ⟨fun _ h => (by cases h), fun _ h => (by cases h), fun _ h => (by cases h),
   fun _ h => (by cases h), fun _ h => (by cases h)⟩

theorem Held.pruneBuffers (h : Held H D P G V s) {n : Nat} (e : pruneBuffers s n = .ok s') :
    Held H D P G V s' := by
  unfold Node.pruneBuffers at e
  split at e
  next g a b h1 h2 h3 =>
    cases e
    exact ⟨prune_all h.newP h2, prune_all h.knownP h3, prune_all h.gossip h1, h.fcNew, h.fcKnown⟩
  · cases e

theorem Held.setCheckpoints (h : Held H D P G V s) {hd : Root} {j f : Option Checkpoint}
    (e : setCheckpoints s hd j f = .ok s') : Held H D P G V s' := by
  unfold Node.setCheckpoints at e
  split at e
  · cases e
  next db hdb =>
    have h1 : Held H D P G V { s with mem := { s.mem with db := db } } := h.congr rfl rfl rfl rfl
    simp only at e
    split at e
    · split at e
      · exact h1.pruneBuffers e
      · cases e; exact h1
    · cases e; exact h1

theorem Held.getState (h : Held H D P G V s) {r : Root} {x : Option State}
    (e : s.getState r = .ok (x, s')) : Held H D P G V s' := by
  obtain ⟨-, h1, h2, h3, h4, -⟩ := getState_frame e
  exact h.congr h2 h3 h4 h1

theorem Held.updateHead (h : Held H D P G V s) (e : updateHead s = .ok s') : Held H D P G V s' := by
  obtain ⟨x, m1, f, -, -, hs⟩ := updateHead_split e
  exact Held.setCheckpoints (s := { s with mem := m1 }) (h.congr rfl rfl rfl rfl) hs

theorem Held.acceptNew (hD : ∀ d d', D d → D d' → H.attData d = H.attData d' → d = d')
    (h : Held H D P G V s) (e : acceptNew H s = .ok s') : Held H D P G V s' := by
  obtain ⟨s1, h1, h2⟩ := acceptNew_split e
  refine Held.updateHead ?_ h2
  unfold promoteNew at h1
  simp only at h1
  split at h1
  · cases h1
  next k hk =>
    cases h1
    refine ⟨drainRest_all h.newP, pushBatch_all hD h.knownP (drainLoop_all h.newP) hk, h.gossip,
      fun x hx => (by cases hx), ?_⟩
    exact foldVotes_all h.fcKnown h.fcNew

theorem Held.duty (hD : ∀ d d', D d → D d' → H.attData d = H.attData d' → d = d')
    (h : Held H D P G V s) {i : Interval} {p : Bool} (e : duty H s i p = .ok s') :
    Held H D P G V s' := by
  unfold Node.duty at e
  cases i with
  | publication =>
    simp only at e
    split at e
    · exact h.acceptNew hD e
    · cases e; exact h
  | attestation => cases e; exact h
  | aggregation => cases e; exact h
  | safeTarget =>
    obtain ⟨st, m1, -, rfl⟩ := updateSafeTarget_split e
    exact h.congr rfl rfl rfl rfl
  | endOfSlot => exact h.acceptNew hD e

theorem Held.tickLoop (hD : ∀ d d', D d → D d' → H.attData d = H.attData d' → d = d')
    {target : Nat} {p : Bool} : ∀ (n : Nat) {s s' : Store}, Held H D P G V s →
      tickLoop H target p n s = .ok s' → Held H D P G V s'
  | 0, _, _, h, e => by cases e; exact h
  | n + 1, s, s', h, e => by
    unfold Node.tickLoop at e
    simp only at e
    split at e
    · cases e
    split at e
    · cases e
    next s1 h1 =>
      refine Held.tickLoop hD n ?_ e
      exact Held.duty (s := s.setTime (s.mem.db.time + 1)) hD (h.congr rfl rfl rfl rfl) h1

theorem Held.onTick (hD : ∀ d d', D d → D d' → H.attData d = H.attData d' → d = d')
    (h : Held H D P G V s) {ts : Nat} {p : Bool} (e : onTick H s ts p = .ok s') :
    Held H D P G V s' := by
  unfold Node.onTick at e
  simp only at e
  refine Held.tickLoop hD _ ?_ e
  split
  · exact h.congr rfl rfl rfl rfl
  · exact h

theorem Held.insertNewPayload (hD : ∀ d d', D d → D d' → H.attData d = H.attData d' → d = d')
    (hV : ∀ d g, P d g → ∀ v : Nat, g.participants[v]? = some true → V v d)
    (h : Held H D P G V s) {d : AttData} {g : Agg} (hd : D d) (hp : P d g)
    (e : insertNewPayload H s d g = .ok s') : Held H D P G V s' := by
  unfold Node.insertNewPayload at e
  split at e
  · cases e
  next b hb =>
    cases e
    refine ⟨push_all hD h.newP hd hp hb, h.knownP, h.gossip, ?_, h.fcKnown⟩
    refine recordEntries_all h.fcNew ?_
    intro x hx v hv
    rw [List.mem_singleton.1 hx] at hv ⊢
    exact hV d g hp v hv

theorem Held.foldAggs (hD : ∀ d d', D d → D d' → H.attData d = H.attData d' → d = d')
    (hV : ∀ d g, P d g → ∀ v : Nat, g.participants[v]? = some true → V v d) :
    ∀ {l : List (AttData × Agg)} {s s' : Store}, Held H D P G V s →
      (∀ x ∈ l, D x.1 ∧ P x.1 x.2) → foldAggs H s l = .ok s' → Held H D P G V s'
  | [], _, _, h, _, e => by cases e; exact h
  | x :: l, s, s', h, hl, e => by
    unfold Node.foldAggs foldP at e
    split at e
    · cases e
    next s1 h1 =>
      obtain ⟨q1, q2⟩ := hl x List.mem_cons_self
      exact Held.foldAggs hD hV (h.insertNewPayload hD hV q1 q2 h1)
        (fun y hy => hl y (List.mem_cons_of_mem _ hy)) e

theorem Held.commitBlock (h : Held H D P G V s) {sb : SignedBlock} {st : State}
    (hb : ∀ a ∈ sb.block.body, ∀ v : Nat, a.bits[v]? = some true → V v a.data)
    (e : commitBlock H s sb st = .ok s') : Held H D P G V s' := by
  unfold Node.commitBlock at e
  split at e
  · cases e
  next s1 h1 =>
    have k1 : Held H D P G V s1 := by
      unfold raiseJustified at h1
      split at h1
      · exact h.setCheckpoints h1
      · cases h1; exact h
    simp only at e
    split at e
    · cases e
    next s2 h2 =>
      refine Held.updateHead ?_ e
      unfold putState at h2
      split at h2
      · cases h2
      next m hm =>
        cases h2
        refine ⟨k1.newP, k1.knownP, k1.gossip, k1.fcNew, ?_⟩
        refine recordEntries_all k1.fcKnown ?_
        intro x hx
        obtain ⟨a, ha, rfl⟩ := List.mem_map.1 hx
        exact hb a ha

end

variable {c : Ctx} {t : Nat} {vals : List Validator} {bs : List Block} {a0 : State}
  {body : Option (List AggAtt)} {K : Header → Prop} {rank : Root → Nat} {root : Root}
  {anchor : State} {ops ops' : List Db.Op} {S : SignedBlock → Prop} {D : AttData → Prop}
  {P : AttData → Agg → Prop} {G : Nat → AttData → Nat → Prop} {V : Nat → AttData → Prop}

/-- Every state a node holds has the same validators. -/
theorem state_vals {E : Env} {s : Store} (W : World E t vals bs a0 K)
    (I : NInv E t vals a0 body K root anchor NoX ops s)
    {r : Root} {st : State} (h : stateOf root anchor ops r = some st) : st.validators = vals := by
  obtain ⟨m, -, -, -, h3, -⟩ := I.started
  rw [I.tree.vals r st h, h3]
  exact (chain_validators W.chain : a0.validators = vals)

/-- What is read after pruning could be read before. -/
theorem prune_stored {E : Env} {s : Store} (I : NInv E t vals a0 body K root anchor NoX ops s)
    {db : Db} (h : pruneOldData s.mem.db = .ok db) {r : Root} (hr : r ≠ root) {sb : SignedBlock}
    (hg : getSignedBlock E.H db r = some sb) : getSignedBlock E.H s.mem.db r = some sb := by
  obtain ⟨f1, -, -, f4, -⟩ := pruneOldData_frame h
  have hp := (pruneOldData_proofs h (run_blocks I.run).nodup).2
  unfold getSignedBlock at hg ⊢
  rw [f1, f4] at hg
  cases hh : s.mem.db.headers.get? r with
  | none => rw [hh] at hg; cases hg
  | some hd =>
    rw [hh] at hg
    simp only at hg ⊢
    split at hg
    · cases hg
    next b hb =>
      have hs : hd.slot ≠ 0 := by
        rcases I.tree.hdrSlot r hd hh with h | h
        · exact absurd h hr
        · omega
      rw [hp] at hg
      split at hg
      next p hpp =>
        split at hpp
        · cases hpp
        · rw [hpp]; exact hg
      · rw [if_neg hs] at hg; cases hg

/-- What a node keeps true about what it stores, queues and holds. -/
structure Keeps (c : Ctx) (root : Root) (anchor : State) (K : Header → Prop)
    (S : SignedBlock → Prop) (D : AttData → Prop) (P : AttData → Agg → Prop)
    (G : Nat → AttData → Nat → Prop) (V : Nat → AttData → Prop) (ops : List Db.Op) (a : Actor)
    (q : List SignedBlock) : Prop where
  imported : ∀ r st, stateOf root anchor ops r = some st → r ≠ root →
    ∃ p sb, stateOf root anchor ops sb.block.parentRoot = some p ∧ c.E.verifyBlock p sb = true ∧
      sb.block.root c.E.H = r ∧ S sb ∧ K (sb.block.header c.E.H)
  stored : ∀ r sb, r ≠ root → getSignedBlock c.E.H a.store.mem.db r = some sb → S sb
  queued : ∀ sb ∈ q, S sb
  held : Held c.E.H D P G V a.store

theorem imported_still {E : Env} {s s' : Store} (W : World E t vals bs a0 K)
    (I : NInv E t vals a0 body K root anchor NoX ops s)
    (I' : NInv E t vals a0 body K root anchor NoX ops' s')
    (hx : ∀ r st, stateOf root anchor ops r = some st → stateOf root anchor ops' r = some st)
    (hh : ∀ r, hasState s'.mem.db r = hasState s.mem.db r) {Q : Root → State → SignedBlock → Prop}
    (V : ∀ r st, stateOf root anchor ops r = some st → r ≠ root →
      ∃ p sb, stateOf root anchor ops sb.block.parentRoot = some p ∧ Q r p sb) :
    ∀ r st, stateOf root anchor ops' r = some st → r ≠ root →
      ∃ p sb, stateOf root anchor ops' sb.block.parentRoot = some p ∧ Q r p sb := by
  intro r st hr hne
  rw [back_state W I I' hx (hh r)] at hr
  obtain ⟨p, sb, h1, h2⟩ := V r st hr hne
  exact ⟨p, sb, hx _ _ h1, h2⟩

/-- What processing a block does to the memory of the store. -/
theorem process_store {a : Actor} {sb : SignedBlock} {o : Out} (e : a.process c sb = .ok o) :
    (o.actor.store.newP = a.store.newP ∧ o.actor.store.knownP = a.store.knownP ∧
      o.actor.store.gossip = a.store.gossip ∧ o.actor.store.fc = a.store.fc) ∨
    (a.store.mem.db.finalized.slot < sb.block.slot ∧ ∃ s r, onBlock c.E a.store sb = .ok (s, r) ∧
      ((∃ x, r = .error x ∧ o.actor.store = s) ∨
        (r = .ok () ∧ foldAggs c.E.H s (c.reagg s sb) = .ok o.actor.store))) := by
  unfold Actor.process at e
  simp only at e
  have hd : ∀ {a1 : Actor} {r : Root}, a.discard c r = .ok a1 → a1.store = a.store := by
    intro a1 r h
    unfold Actor.discard at h
    split at h
    · cases h
    · cases h; rfl
  split at e
  · split at e
    · cases e
    next a1 h1 => cases e; left; simp only [hd h1, and_self]
  next hf =>
  split at e
  · split at e
    · cases e
    next a1 h1 => cases e; left; simp only [hd h1, and_self]
  split at e
  · left
    unfold Actor.pend at e
    simp only at e
    split at e
    · cases e
    split at e
    · cases e
    · cases e; exact ⟨rfl, rfl, rfl, rfl⟩
    · split at e
      · cases e
      · cases e; exact ⟨rfl, rfl, rfl, rfl⟩
  · right
    refine ⟨by omega, ?_⟩
    split at e
    · cases e
    next s x h => cases e; exact ⟨s, _, h, .inl ⟨x, rfl, rfl⟩⟩
    next s h =>
      refine ⟨s, _, h, .inr ⟨rfl, ?_⟩⟩
      split at e
      · cases e
      next s2 h2 =>
        cases e
        rw [h2]
        unfold Actor.collect
        split <;> rfl

/-- An import keeps what is held as asked. -/
theorem held_import {s0 s : Store} {r : Except Err Unit} (W : World c.E t vals bs a0 K)
    (I : NInv c.E t vals a0 body K root anchor NoX ops s0) (L : Laws c vals S D P G V)
    (h : Held c.E.H D P G V s0) {sb : SignedBlock} (e1 : onBlock c.E s0 sb = .ok (s, r)) :
    Held c.E.H D P G V s := by
  unfold Node.onBlock at e1
  split at e1
  · cases e1; exact h
  · split at e1
    · cases e1
    next s1 g1 => cases e1; exact h.getState g1
    next p s1 g1 =>
      have hp : p.validators = vals := by
        obtain ⟨s2, g2, -⟩ := I.getState W sb.block.parentRoot
        rw [g1] at g2
        have g3 := (Prod.mk.inj (Except.ok.inj g2)).1
        exact state_vals W I g3.symm
      have k1 := h.getState g1
      split at e1
      · cases e1; exact k1
      next st hc =>
        split at e1
        · cases e1
        next s2 h2 =>
          cases e1
          exact k1.commitBlock (L.block p sb hp (checkBlock_verified hc)) h2

/-- An import keeps what is asked of the imported and stored blocks. -/
theorem keeps_import {a : Actor} {q : List SignedBlock} {s1 s2 : Store} {sb : SignedBlock}
    {r : Except Err Unit} (W : World c.E t vals bs a0 K) (L : Laws c vals S D P G V)
    (I : NInv c.E t vals a0 body K root anchor NoX ops a.store)
    (I' : NInv c.E t vals a0 body K root anchor NoX ops' s2)
    (J : Keeps c root anchor K S D P G V ops a q)
    (imp : Imported c.E root anchor ops a.store sb ops' s1 r) (mem : s2.mem = s1.mem)
    (hS : S sb) (hk : K (sb.block.header c.E.H)) :
    (∀ r st, stateOf root anchor ops' r = some st → r ≠ root →
      ∃ p sb, stateOf root anchor ops' sb.block.parentRoot = some p ∧ c.E.verifyBlock p sb = true ∧
        sb.block.root c.E.H = r ∧ S sb ∧ K (sb.block.header c.E.H)) ∧
    (∀ r b, r ≠ root → getSignedBlock c.E.H s2.mem.db r = some b → S b) := by
  have x := imp.ext
  cases hr : r with
  | error e =>
    have hdb : s2.mem.db = a.store.mem.db := by rw [mem]; exact imp.err e hr
    refine ⟨imported_still W I I' x.states (fun k => by rw [hdb]) J.imported,
      fun r b hr hg => ?_⟩
    rw [hdb] at hg
    exact J.stored r b hr hg
  | ok u =>
    refine ⟨?_, fun k b hkr hg => ?_⟩
    · by_cases hh : hasState a.store.mem.db (sb.block.root c.E.H) = true
      · exact imported_still W I I' x.states (fun k => by rw [mem, imp.had hh]) J.imported
      · have hh : hasState a.store.mem.db (sb.block.root c.E.H) = false := Bool.eq_false_iff.2 hh
        obtain ⟨p, st, h1, h2, h3⟩ := imp.new hr hh
        intro k st' hk' hne
        by_cases hks : k = sb.block.root c.E.H
        · subst hks
          exact ⟨p, sb, x.states _ _ h1, checkBlock_verified h2, rfl, hS, hk⟩
        · rw [back_state W I I' x.states (by rw [mem]; exact imp.others k hks)] at hk'
          obtain ⟨p', sb', q1, q2⟩ := J.imported k st' hk' hne
          exact ⟨p', sb', x.states _ _ q1, q2⟩
    · by_cases h : k = sb.block.root c.E.H
      · subst h
        by_cases hh : hasState a.store.mem.db (sb.block.root c.E.H) = true
        · rw [mem, imp.had hh] at hg
          exact J.stored _ b hkr hg
        · rw [mem, imp.self hr (Bool.eq_false_iff.2 hh) (L.empty sb hS)] at hg
          cases hg; exact hS
      · rw [mem, imp.blocks k h] at hg
        exact J.stored k b hkr hg

/-- Every step of the queue loop keeps it. -/
theorem kept_keeps (ho : ∀ l, (c.order l).Perm l) (W : World c.E t vals bs a0 K)
    (A : AnchorOk c.E.H (State.fromGenesis c.E.H t vals) K root anchor)
    (L : Laws c vals S D P G V) :
    Kept c t vals a0 body K rank root anchor (Keeps c root anchor K S D P G V) := by
  intro ops a sb q ops' o I I' hk x hready hrq e p J
  have hS := J.queued sb List.mem_cons_self
  have hq : ∀ y ∈ q, S y := fun y hy => J.queued y (List.mem_cons_of_mem _ hy)
  -- the parts about states and stored blocks
  have key : (∀ r st, stateOf root anchor ops' r = some st → r ≠ root →
        ∃ p sb, stateOf root anchor ops' sb.block.parentRoot = some p ∧ c.E.verifyBlock p sb = true ∧
          sb.block.root c.E.H = r ∧ S sb ∧ K (sb.block.header c.E.H)) ∧
      (∀ r b, r ≠ root → getSignedBlock c.E.H o.actor.store.mem.db r = some b → S b) ∧
      (∀ b ∈ o.push, ∃ r, r ≠ root ∧ getSignedBlock c.E.H o.actor.store.mem.db r = some b) := by
    cases p with
    | reject why ops_eq store push rem fetch =>
      rw [ops_eq, store, push]
      exact ⟨J.imported, J.stored, fun b hb => by cases hb⟩
    | pend fin noState states db edges self push size fetch =>
      rw [states]
      refine ⟨J.imported, fun r b hr hg => ?_, fun b hb => ?_⟩
      · rw [db] at hg
        by_cases h : r = sb.block.root c.E.H
        · subst h
          rw [getSigned_write_self (L.empty sb hS)] at hg
          cases hg; exact hS
        · rw [getSigned_write_other h] at hg
          exact J.stored r b hr hg
      · rcases push with h | ⟨r, b', h1, h2, h3, -⟩
        · rw [h] at hb; cases hb
        · rw [h1, List.mem_singleton] at hb
          subst hb
          exact ⟨r, h2, h3⟩
    | fail hasParent imp actor push fetch =>
      obtain ⟨k1, k2⟩ := keeps_import W L I.node I'.node J imp (by rw [actor]) hS hk
      exact ⟨k1, k2, fun b hb => by rw [push] at hb; cases hb⟩
    | @done s' hasParent imp mem pending push parents fetch =>
      obtain ⟨k1, k2⟩ := keeps_import W L I.node I'.node J imp mem hS hk
      refine ⟨k1, k2, fun b hb => ?_⟩
      · rw [push] at hb
        obtain ⟨r, h1, h2⟩ := List.mem_filterMap.1 hb
        refine ⟨r, ?_, h2⟩
        have h1 := (ho _).subset h1
        cases hp : a.pending.get? (sb.block.root c.E.H) with
        | none => rw [hp] at h1; cases h1
        | some l =>
          rw [hp] at h1
          exact (I.maps.child _ r ⟨l, hp, h1⟩).1
  refine ⟨key.1, key.2.1, fun y hy => ?_, ?_⟩
  · rcases List.mem_append.1 hy with h | h
    · exact hq y h
    · obtain ⟨r, h1, h2⟩ := key.2.2 y h
      exact key.2.1 r y h1 h2
  rcases process_store e with ⟨h1, h2, h3, h4⟩ | ⟨hfin, s, r, e1, e2⟩
  · exact J.held.congr h1 h2 h3 h4
  -- the store after the import
  have hs := held_import W I.node L J.held e1
  rcases e2 with ⟨x, -, e2⟩ | ⟨rfl, e2⟩
  · rw [e2]; exact hs
  refine hs.foldAggs L.inj L.votes (fun y hy => ?_) e2
  have hm := foldAggs_mem e2
  obtain ⟨s2, ops2, r2, f1, I2, f2⟩ := I.node.imported W A sb hk
  rw [e1] at f1
  cases f1
  obtain ⟨st, hst⟩ := f2.ok rfl
  have h1 := (I2.hasState_iff W _).2 ⟨st, hst⟩
  rw [← hm] at h1
  obtain ⟨st', hst'⟩ := (I'.node.hasState_iff W _).1 h1
  have hne : sb.block.root c.E.H ≠ root := by
    intro he
    have h1 := W.collisionFree _ _ hk A.known (he.trans A.root.symm)
    have h3 : sb.block.slot = anchor.latestBlockHeader.slot := by rw [← h1]; rfl
    obtain ⟨sf, g1, g2⟩ := I.node.cp.fin
    have : anchor.slot ≤ sf.slot := by
      rcases I.node.tree.hdrSlot _ _ (I.node.tree.own _ _ g1).2 with h | h
      · rw [h, I.node.tree.anc] at g1
        cases g1
        exact Nat.le_refl _
      · rw [I.node.tree.slotEq _ _ g1] at h
        omega
    rw [A.slot] at h3
    omega
  obtain ⟨p, sb', k1, k2, k3, k4, k5⟩ := key.1 _ _ hst' hne
  have hh := header_eq W k5 hk k3
  have hpar : sb'.block.parentRoot = sb.block.parentRoot := by
    show (sb'.block.header c.E.H).parentRoot = (sb.block.header c.E.H).parentRoot
    rw [hh]
  rw [hpar] at k1
  obtain ⟨s3, g1, -⟩ := I'.node.getState W sb.block.parentRoot
  rw [k1] at g1
  have g2 : ∃ s4, s.getState sb.block.parentRoot = .ok (some p, s4) := by
    unfold Store.getState at g1 ⊢
    rw [hm] at g1
    split at g1
    · cases g1
    next x m1 hx =>
      cases g1
      exact ⟨_, rfl⟩
  obtain ⟨s4, g2⟩ := g2
  exact L.reagg s s4 p sb sb' hs (state_vals W I'.node k1) g2 hS k4 hh.symm k2 y hy

/-- Every event other than a block keeps what is held as asked. -/
theorem Held.step (W : World c.E t vals bs a0 K) {s s' : Store}
    (I : NInv c.E t vals a0 body K root anchor NoX ops s) (L : Laws c vals S D P G V)
    (h : Held c.E.H D P G V s) {ev : Event} (hb : ∀ sb, ev ≠ .block sb) (he : EventOk S D P ev)
    (e : step c.E s ev = .ok s') : Held c.E.H D P G V s' := by
  have hval : ∀ {r : Root} {st : State} {s1 : Store}, s.getState r = .ok (some st, s1) →
      st.validators = vals := by
    intro r st s1 g1
    obtain ⟨s2, g2, -⟩ := I.getState W r
    rw [g1] at g2
    exact state_vals W I (Prod.mk.inj (Except.ok.inj g2)).1.symm
  cases ev with
  | block sb => exact absurd rfl (hb sb)
  | own sb =>
    have e : R.store (onBlock c.E s sb) = .ok s' := e
    unfold R.store at e
    split at e
    · cases e
    next h1 => cases e; exact held_import W I L h h1
  | read r =>
    unfold Node.step at e
    simp only at e
    split at e
    · cases e
    next h1 => cases e; exact h.getState h1
  | tick ts p => exact h.onTick L.inj e
  | attestation v d sig agg =>
    have e : R.store (onGossipAttestation c.E s v d sig agg) = .ok s' := e
    unfold onGossipAttestation at e
    split at e
    · cases e
    · cases e; exact h
    split at e
    · cases e
    next s1 g1 => cases e; exact h.getState g1
    next st s1 g1 =>
      have k1 := h.getState g1
      split at e
      · cases e; exact k1
      next val hv =>
        split at e
        · cases e; exact k1
        split at e
        · cases e; exact k1
        next hsig =>
          split at e
          · split at e
            · cases e
            next g hg =>
              cases e
              rw [hval g1] at hv
              exact ⟨k1.newP, k1.knownP, ginsert_all L.inj k1.gossip he
                (L.att v d sig val he hv (not_not.1 hsig)) hg, k1.fcNew, k1.fcKnown⟩
          · cases e; exact k1
  | aggregate d a =>
    have e : R.store (onGossipAggregate c.E s d a) = .ok s' := e
    unfold onGossipAggregate at e
    split at e
    · cases e
    · cases e; exact h
    split at e
    · cases e
    next s1 g1 => cases e; exact h.getState g1
    next st s1 g1 =>
      have k1 := h.getState g1
      simp only at e
      split at e
      · cases e; exact k1
      next h1 =>
      split at e
      · cases e; exact k1
      next h2 =>
      split at e
      · cases e; exact k1
      split at e
      · cases e; exact k1
      next h3 =>
        split at e
        · cases e
        next s2 h4 =>
          cases e
          rw [hval g1] at h2 h3
          refine k1.insertNewPayload L.inj L.votes he (L.agg d a he ?_ ?_ (not_not.1 h3)) h4
          · intro h0; rw [h0] at h1; exact h1 rfl
          · intro v hv
            exact of_decide_eq_true (List.all_eq_true.1 (not_not.1 h2) v hv)
  | ownAggregate d a keys =>
    have e : applyAggregate c.E.H s d a keys = .ok s' := e
    unfold applyAggregate at e
    split at e
    · cases e
    next s1 h1 =>
      have k1 := h.insertNewPayload L.inj L.votes he.1 he.2 h1
      split at e
      · cases e
      next g hg =>
        cases e
        exact ⟨k1.newP, k1.knownP, gdelete_all k1.gossip hg, k1.fcNew, k1.fcKnown⟩
  | accept => exact h.acceptNew L.inj e
  | prune =>
    unfold Node.step at e
    simp only at e
    split at e
    · cases e
    · cases e; exact h.congr rfl rfl rfl rfl
  | restart =>
    unfold Node.step at e
    cases e
    exact held_fresh _ _

/-- At the start. -/
theorem keeps_init (W : World c.E t vals bs a0 K) {a : Actor}
    (I : AInv c.E t vals a0 body K rank root anchor [] a) (hi : Actor.init c a0 body = .ok a) :
    Keeps c root anchor K S D P G V [] a [] := by
  refine ⟨fun r st hr hne => ?_, fun r sb hr hg => ?_, fun y hy => (by cases hy), ?_⟩
  · unfold stateOf at hr
    rw [if_neg hne] at hr
    cases hr
  · exfalso
    have := (run_blocks I.node.run).absent r rfl hr
    unfold getSignedBlock at hg
    rw [this] at hg
    cases hg
  · unfold Actor.init Node.init at hi
    split at hi
    · cases hi
    next s hs =>
      cases hi
      split at hs
      · cases hs
      · cases hs; exact held_fresh _ _

/-- One event. -/
theorem keeps_step (ho : ∀ l, (c.order l).Perm l) (W : World c.E t vals bs a0 K)
    (A : AnchorOk c.E.H (State.fromGenesis c.E.H t vals) K root anchor) (hR : Ranks c.E.H K rank)
    (L : Laws c vals S D P G V) {a a' : Actor} {f : List Root}
    (I : AInv c.E t vals a0 body K rank root anchor ops a)
    (J : Keeps c root anchor K S D P G V ops a []) {ev : Event} (hk : EventK c.E.H K ev)
    (he : EventOk S D P ev) (hs : a.step c ev = .ok (a', f)) :
    ∃ ops', AInv c.E t vals a0 body K rank root anchor ops' a' ∧
      Keeps c root anchor K S D P G V ops' a' [] := by
  by_cases hb : ∃ sb, ev = .block sb
  · obtain ⟨sb, rfl⟩ := hb
    rcases I.onBlock ho W A hR (kept_keeps ho W A L) sb hk
        ⟨J.imported, J.stored, fun y hy => by rw [List.mem_singleton.1 hy]; exact he, J.held⟩ with
      ⟨h1, -⟩ | ⟨a1, a2, f2, ops1, ops', db, e, I1, J1, hp, ha, I', x1, x2⟩
    · have hs : a.onBlock c sb = .ok (a', f) := hs
      rw [h1] at hs; cases hs
    · have hs : a.onBlock c sb = .ok (a', f) := hs
      rw [e] at hs
      cases hs
      subst ha
      have hs : step c.E a1.store .prune =
          .ok { a1.store with mem := { a1.store.mem with db := db } } := by
        unfold step; rw [hp]
      refine ⟨ops', I', ?_, fun r b hr hg => J1.stored r b hr (prune_stored I1.node hp hr hg),
        fun y hy => (by cases hy), J1.held.congr rfl rfl rfl rfl⟩
      exact imported_still W I1.node I'.node x2.states
        (fun r => (step_still (by intro sb; constructor <;> (intro h; cases h)) hs).1.hasState r) J1.imported
  · have hb : ∀ sb, ev ≠ .block sb := fun sb h => hb ⟨sb, h⟩
    by_cases hown : ∃ sb, ev = .own sb
    · obtain ⟨sb, rfl⟩ := hown
      obtain ⟨s', ops', r, h1, e, I', q⟩ := I.own W A sb hk
      rw [e] at hs
      cases hs
      obtain ⟨k1, k2⟩ := keeps_import W L I.node I'.node J q rfl he hk
      exact ⟨ops', I', k1, k2, (fun y hy => by cases hy), held_import W I.node L J.held h1⟩
    have hpl : ev.Plain := fun sb => ⟨hb sb, fun h => hown ⟨sb, h⟩⟩
    obtain ⟨a2, f2, ops', e, I', x⟩ := I.other W A ev hb hk
    rw [e] at hs
    cases hs
    have hst : step c.E a.store ev = .ok a'.store := by
      by_cases hr : ev = .restart
      · subst hr
        unfold Actor.step at e
        simp only at e
        split at e
        · cases e
        next s1 h1 => cases e; exact h1
      · exact (Actor.step_other hb hr e).1
    obtain ⟨st, hpr⟩ := step_still hpl hst
    refine ⟨ops', I', imported_still W I.node I'.node x.states (fun r => st.hasState r) J.imported,
      fun r b hr hg => ?_, fun y hy => (by cases hy), J.held.step W I.node L hb he hst⟩
    rcases hpr with hpr | hpr
    · have hsame : SameBlocks a.store.mem.db a'.store.mem.db := ⟨st.headers, st.bodies, hpr⟩
      rw [hsame.get] at hg
      exact J.stored r b hr hg
    · exact J.stored r b hr (prune_stored I.node hpr hr hg)

/-- What is asked holds at every reachable actor, if it holds of each event whenever it held at all
actors before. -/
theorem areach_keeps (ho : ∀ l, (c.order l).Perm l) (W : World c.E t vals bs a0 K)
    (hR : Ranks c.E.H K rank) (L : Laws c vals S D P G V) :
    ∀ (n : Nat) {evs : List Event} {a : Actor}, evs.length ≤ n → AReach c a0 body evs a →
      (∀ ev ∈ evs, EventK c.E.H K ev) →
      (∀ ev evs1, ev :: evs1 <:+ evs →
        (∀ evs0 a0', evs0 <:+ evs1 → AReach c a0 body evs0 a0' →
          (∃ root anchor ops, AInv c.E t vals a0 body K rank root anchor ops a0') ∧
          Held c.E.H D P G V a0'.store) → EventOk S D P ev) →
      ∃ root anchor ops, AnchorOk c.E.H (State.fromGenesis c.E.H t vals) K root anchor ∧
        AInv c.E t vals a0 body K rank root anchor ops a ∧
        Keeps c root anchor K S D P G V ops a [] := by
  intro n
  induction n with
  | zero =>
    intro evs a hn h hk hev
    cases h with
    | init hi =>
      obtain ⟨root, anchor, A, I⟩ := init_ainv W rank hi
      exact ⟨root, anchor, [], A, I, keeps_init W I hi⟩
    | step _ _ => simp at hn
  | succ n ih =>
    intro evs a hn h hk hev
    cases h with
    | init hi =>
      obtain ⟨root, anchor, A, I⟩ := init_ainv W rank hi
      exact ⟨root, anchor, [], A, I, keeps_init W I hi⟩
    | @step evs a1 ev _ f hr hs =>
      have hn : evs.length ≤ n := by simp at hn; omega
      have hk' : ∀ ev ∈ evs, EventK c.E.H K ev := fun ev he => hk ev (List.mem_cons_of_mem _ he)
      have all : ∀ evs0 a0', evs0 <:+ evs → AReach c a0 body evs0 a0' →
          ∃ root anchor ops, AnchorOk c.E.H (State.fromGenesis c.E.H t vals) K root anchor ∧
            AInv c.E t vals a0 body K rank root anchor ops a0' ∧
            Keeps c root anchor K S D P G V ops a0' [] := by
        intro evs0 a0' hsuf hr0
        refine ih (Nat.le_trans hsuf.length_le hn) hr0 (fun ev he => hk' ev (hsuf.subset he)) ?_
        intro ev' evs' h1 h2
        exact hev ev' evs' (h1.trans (hsuf.trans (List.suffix_cons _ _))) h2
      obtain ⟨root, anchor, ops, A, I, J⟩ := all evs a1 (List.suffix_refl _) hr
      have he := hev ev evs (List.suffix_refl _) (fun evs0 a0' h1 h2 => by
        obtain ⟨r, an, op, -, i, j⟩ := all evs0 a0' h1 h2
        exact ⟨⟨r, an, op, i⟩, j.held⟩)
      obtain ⟨ops', I', J'⟩ := keeps_step ho W A hR L I J (hk ev List.mem_cons_self) he hs
      exact ⟨root, anchor, ops', A, I', J'⟩

end Verif.Node
