import Verif.Lemmas.ActorInv
import Verif.Spec.Actor
/-!
# Every event keeps the actor invariant
-/
namespace Verif.Node
open Verif Verif.Db Verif.Buffers

/-- What events other than blocks leave alone. -/
structure Still (db db' : Db) : Prop where
  states : db'.states = db.states
  diffs : db'.diffs = db.diffs
  headers : db'.headers = db.headers
  bodies : db'.bodies = db.bodies
  time : db.time ≤ db'.time

theorem Still.refl (db : Db) : Still db db := ⟨rfl, rfl, rfl, rfl, Nat.le_refl _⟩

theorem Still.trans {a b c : Db} (h1 : Still a b) (h2 : Still b c) : Still a c :=
  ⟨h2.states.trans h1.states, h2.diffs.trans h1.diffs, h2.headers.trans h1.headers,
   h2.bodies.trans h1.bodies, Nat.le_trans h1.time h2.time⟩

theorem Still.hasState {a b : Db} (h : Still a b) (r : Root) :
    Db.hasState b r = Db.hasState a r := by
  unfold Db.hasState; rw [h.states, h.diffs]

theorem acceptNew_still {H : Hash} {s s' : Store} (e : acceptNew H s = .ok s') :
    Still s.mem.db s'.mem.db ∧ s'.mem.db.proofs = s.mem.db.proofs := by
  obtain ⟨s1, h1, h2⟩ := acceptNew_split e
  obtain ⟨a1, -⟩ := promoteNew_frame h1
  have hf := updateHead_frame h2
  obtain ⟨b1, b2⟩ := updateHead_blocks h2
  rw [← a1]
  exact ⟨⟨hf.2.2.2.2.1, hf.2.2.2.2.2.1, b1.headers, b1.bodies, Nat.le_of_eq b2.symm⟩, b1.proofs⟩

theorem updateSafeTarget_still {s s' : Store} (e : updateSafeTarget s = .ok s') :
    Still s.mem.db s'.mem.db ∧ s'.mem.db.proofs = s.mem.db.proofs := by
  obtain ⟨st, m1, -, rfl⟩ := updateSafeTarget_split e
  exact ⟨⟨rfl, rfl, rfl, rfl, Nat.le_refl _⟩, rfl⟩

theorem duty_still {H : Hash} {s s' : Store} {i : Interval} {p : Bool}
    (e : duty H s i p = .ok s') :
    Still s.mem.db s'.mem.db ∧ s'.mem.db.proofs = s.mem.db.proofs := by
  cases i with
  | publication =>
    cases p with
    | true => exact acceptNew_still e
    | false => cases e; exact ⟨.refl _, rfl⟩
  | attestation => cases e; exact ⟨.refl _, rfl⟩
  | aggregation => cases e; exact ⟨.refl _, rfl⟩
  | safeTarget => exact updateSafeTarget_still e
  | endOfSlot => exact acceptNew_still e

theorem tickLoop_still {H : Hash} {target : Nat} {p : Bool} (n : Nat) : ∀ {s s' : Store},
    tickLoop H target p n s = .ok s' →
    Still s.mem.db s'.mem.db ∧ s'.mem.db.proofs = s.mem.db.proofs := by
  induction n with
  | zero => intro s s' e; cases e; exact ⟨.refl _, rfl⟩
  | succ n ih =>
    intro s s' e
    unfold tickLoop at e
    simp only at e
    split at e
    · cases e
    · split at e
      · cases e
      next s2 h2 =>
        obtain ⟨d1, d2⟩ := duty_still h2
        obtain ⟨q1, q2⟩ := ih e
        have h0 : Still s.mem.db (s.setTime (s.mem.db.time + 1)).mem.db :=
          ⟨rfl, rfl, rfl, rfl, Nat.le_succ _⟩
        exact ⟨(h0.trans d1).trans q1, q2.trans d2⟩

theorem onTick_still {H : Hash} {s s' : Store} {ts : Nat} {p : Bool}
    (e : onTick H s ts p = .ok s') :
    Still s.mem.db s'.mem.db ∧ s'.mem.db.proofs = s.mem.db.proofs := by
  unfold onTick at e
  simp only at e
  split at e
  next h =>
    obtain ⟨q1, q2⟩ := tickLoop_still _ e
    have h0 : Still s.mem.db
        (s.setTime (tickTarget s.genesisTime ts - intervalsPerSlot)).mem.db := by
      refine ⟨rfl, rfl, rfl, rfl, ?_⟩
      show s.mem.db.time ≤ tickTarget s.genesisTime ts - intervalsPerSlot
      omega
    exact ⟨h0.trans q1, q2⟩
  · exact tickLoop_still _ e

theorem attestation_still {E : Env} {s s' : Store} {v : Nat} {d : AttData} {sig : Nat} {g : Bool}
    (e : R.store (onGossipAttestation E s v d sig g) = .ok s') : s'.mem.db = s.mem.db := by
  cases h : onGossipAttestation E s v d sig g with
  | error k => rw [h] at e; cases e
  | ok p =>
    obtain ⟨s1, r⟩ := p
    rw [h] at e
    have e : s1 = s' := Except.ok.inj e
    subst e
    unfold onGossipAttestation at h
    split at h
    · cases h
    · cases h; rfl
    · split at h
      · cases h
      next s2 g2 => cases h; exact (getState_frame g2).1
      next st s2 g2 =>
        have hd := (getState_frame g2).1
        split at h
        · cases h; exact hd
        · split at h
          · cases h; exact hd
          split at h
          · cases h; exact hd
          split at h
          · split at h
            · cases h
            · cases h; exact hd
          · cases h; exact hd

theorem insertNewPayload_mem {H : Hash} {s s' : Store} {d : AttData} {a : Agg}
    (e : insertNewPayload H s d a = .ok s') : s'.mem = s.mem := by
  unfold insertNewPayload at e
  split at e
  · cases e
  · cases e; rfl

theorem aggregate_still {E : Env} {s s' : Store} {d : AttData} {a : Agg}
    (e : R.store (onGossipAggregate E s d a) = .ok s') : s'.mem.db = s.mem.db := by
  cases h : onGossipAggregate E s d a with
  | error k => rw [h] at e; cases e
  | ok p =>
    obtain ⟨s1, r⟩ := p
    rw [h] at e
    have e : s1 = s' := Except.ok.inj e
    subst e
    unfold onGossipAggregate at h
    split at h
    · cases h
    · cases h; rfl
    · split at h
      · cases h
      next s2 g2 => cases h; exact (getState_frame g2).1
      next st s2 g2 =>
        have hd := (getState_frame g2).1
        simp only at h
        by_cases c1 : (validatorIndices a.participants).isEmpty = true
        · rw [if_pos c1] at h; cases h; exact hd
        rw [if_neg c1] at h
        split at h
        · cases h; exact hd
        split at h
        · cases h; exact hd
        split at h
        · cases h; exact hd
        split at h
        · cases h
        next s3 h3 => cases h; rw [insertNewPayload_mem h3]; exact hd

/-- The event carries no block. -/
def Event.Plain (ev : Event) : Prop := ∀ sb, ev ≠ .block sb ∧ ev ≠ .own sb

/-- Events without blocks: nothing is stored, and only pruning removes proofs. -/
theorem step_still {E : Env} {s s' : Store} {ev : Event} (hb : ev.Plain)
    (e : step E s ev = .ok s') :
    Still s.mem.db s'.mem.db ∧ (s'.mem.db.proofs = s.mem.db.proofs ∨
      pruneOldData s.mem.db = .ok s'.mem.db) := by
  cases ev with
  | block sb => exact absurd rfl (hb sb).1
  | own sb => exact absurd rfl (hb sb).2
  | read r =>
    have e : (match s.getState r with
      | .error e => .error e
      | .ok (_, s) => .ok s : P Store) = .ok s' := e
    split at e
    · cases e
    next g => cases e; rw [(getState_frame g).1]; exact ⟨.refl _, .inl rfl⟩
  | tick ts p => have := onTick_still e; exact ⟨this.1, .inl this.2⟩
  | attestation v d sig g => rw [attestation_still e]; exact ⟨.refl _, .inl rfl⟩
  | aggregate d a => rw [aggregate_still e]; exact ⟨.refl _, .inl rfl⟩
  | ownAggregate d a keys =>
    have e : applyAggregate E.H s d a keys = .ok s' := e
    unfold applyAggregate at e
    split at e
    · cases e
    next s1 h1 =>
      split at e
      · cases e
      · cases e
        have := insertNewPayload_mem h1
        rw [show ({ s1 with gossip := _ } : Store).mem = s1.mem from rfl, this]
        exact ⟨.refl _, .inl rfl⟩
  | accept => have := acceptNew_still e; exact ⟨this.1, .inl this.2⟩
  | prune =>
    have e : (match pruneOldData s.mem.db with
      | .error e => .error e
      | .ok db => .ok { s with mem := { s.mem with db := db } } : P Store) = .ok s' := e
    split at e
    · cases e
    next db hdb =>
      cases e
      obtain ⟨h1, h2, h3, h4, -⟩ := pruneOldData_frame hdb
      refine ⟨⟨h2, h3, h1, h4, ?_⟩, .inr hdb⟩
      unfold pruneOldData at hdb
      split at hdb
      · cases hdb
      · have hdb := Except.ok.inj hdb
        rw [← hdb]
        unfold pruneProofs pruneBelow
        split <;> exact Nat.le_refl _
  | restart => cases e; exact ⟨.refl _, .inl rfl⟩

variable {c : Ctx} {t : Nat} {vals : List Validator} {bs : List Block} {a0 : State}
  {body : Option (List AggAtt)} {K : Header → Prop} {rank : Root → Nat} {root : Root}
  {anchor : State} {ops : List Db.Op} {a : Actor} {s : Store}

theorem kept_true : Kept c t vals a0 body K rank root anchor (fun _ _ _ => True) :=
  fun _ _ _ _ _ _ _ _ _ _ _ _ _ _ _ => trivial

/-- Events other than blocks and restarts. -/
theorem Actor.step_other {a a' : Actor} {f : List Root} {ev : Event} (hb : ∀ sb, ev ≠ .block sb)
    (hr : ev ≠ .restart) (e : a.step c ev = .ok (a', f)) :
    Node.step c.E a.store ev = .ok a'.store ∧ a'.pending = a.pending ∧ a'.parents = a.parents := by
  cases ev with
  | block sb => exact absurd rfl (hb sb)
  | restart => exact absurd rfl hr
  | _ =>
    unfold Actor.step at e
    simp only at e
    split at e
    · cases e
    next s1 h1 => cases e; exact ⟨h1, rfl, rfl⟩

/-- Importing a block of one's own. -/
theorem AInv.own (W : World c.E t vals bs a0 K)
    (A : AnchorOk c.E.H (State.fromGenesis c.E.H t vals) K root anchor)
    (I : AInv c.E t vals a0 body K rank root anchor ops a) (sb : SignedBlock)
    (hk : K (sb.block.header c.E.H)) :
    ∃ s' ops' r, Node.onBlock c.E a.store sb = .ok (s', r) ∧
      a.step c (.own sb) = .ok ({ a with store := s' }, []) ∧
      AInv c.E t vals a0 body K rank root anchor ops' { a with store := s' } ∧
      Imported c.E root anchor ops a.store sb ops' s' r := by
  obtain ⟨s', ops', r, e, I', q⟩ := I.node.imported W A sb hk
  refine ⟨s', ops', r, e, ?_, ⟨I', q.ext.settled I.settled, I.maps.congr q.ext.headers⟩, q⟩
  have h : Node.step c.E a.store (.own sb) = .ok s' := by
    show R.store (Node.onBlock c.E a.store sb) = .ok s'
    unfold R.store; rw [e]
  unfold Actor.step
  simp only
  rw [h]

/-- Any event other than a block succeeds. -/
theorem AInv.other (W : World c.E t vals bs a0 K)
    (A : AnchorOk c.E.H (State.fromGenesis c.E.H t vals) K root anchor)
    (I : AInv c.E t vals a0 body K rank root anchor ops a) (ev : Event)
    (hb : ∀ sb, ev ≠ .block sb) (hk : EventK c.E.H K ev) :
    ∃ a' f ops', a.step c ev = .ok (a', f) ∧
      AInv c.E t vals a0 body K rank root anchor ops' a' ∧
      Ext root anchor ops a.store ops' a'.store := by
  obtain ⟨s', ops', e, I', x⟩ := I.node.step W A ev (by
    cases ev with
    | block sb => exact absurd rfl (hb sb)
    | own sb => exact hk
    | _ => trivial)
  have M : MInv rank root s'.mem.db a.pending a.parents := I.maps.congr x.headers
  by_cases hr : ev = .restart
  · subst hr
    refine ⟨{ store := s', pending := [], parents := [] }, [], ops', ?_,
      ⟨I', x.settled I.settled, ?_, ?_⟩, x⟩
    · unfold Actor.step; simp only; rw [e]
    · rintro k r ⟨l, h, -⟩; cases h
    · intro r y h; cases h
  · refine ⟨{ a with store := s' }, [], ops', ?_, ⟨I', x.settled I.settled, M⟩, x⟩
    cases ev with
    | block sb => exact absurd rfl (hb sb)
    | restart => exact absurd rfl hr
    | _ => unfold Actor.step; simp only; rw [e]

/-- Every event succeeds, or hits the unwrap at 1091. -/
theorem AInv.step (ho : ∀ l, (c.order l).Perm l) (W : World c.E t vals bs a0 K)
    (A : AnchorOk c.E.H (State.fromGenesis c.E.H t vals) K root anchor)
    (hR : Ranks c.E.H K rank) (I : AInv c.E t vals a0 body K rank root anchor ops a) (ev : Event)
    (hk : EventK c.E.H K ev) :
    (a.step c ev = .error 1091 ∧ ∃ sb, ev = .block sb ∧
      hasState a.store.mem.db sb.block.parentRoot = false ∧
      ProofGone c.E.H root
        (insertPendingBlock c.E.H a.store.mem.db (sb.block.root c.E.H) sb)) ∨
    ∃ a' f ops', a.step c ev = .ok (a', f) ∧
      AInv c.E t vals a0 body K rank root anchor ops' a' ∧
      Ext root anchor ops a.store ops' a'.store := by
  by_cases hb : ∃ sb, ev = .block sb
  · obtain ⟨sb, rfl⟩ := hb
    rcases I.onBlock ho W A hR kept_true sb hk trivial with
      ⟨h1, h2, h3⟩ | ⟨a1, a', f, ops1, ops', db, e, I1, -, -, -, I', x1, x2⟩
    · exact .inl ⟨h1, sb, rfl, h2, h3⟩
    · exact .inr ⟨a', f, ops', e, I', x1.trans x2⟩
  · exact .inr (I.other W A ev (fun sb h => hb ⟨sb, h⟩) hk)

theorem init_ainv (W : World c.E t vals bs a0 K) (rank : Root → Nat)
    (h : Actor.init c a0 body = .ok a) :
    ∃ root anchor, AnchorOk c.E.H (State.fromGenesis c.E.H t vals) K root anchor ∧
      AInv c.E t vals a0 body K rank root anchor [] a := by
  unfold Actor.init at h
  split at h
  · cases h
  next s hs =>
    cases h
    obtain ⟨root, anchor, A, I, hj, hf, hh, -⟩ := init_ninv W hs
    refine ⟨root, anchor, A, I, ?_, ?_, ?_⟩
    · unfold Settled
      rw [show ({ store := s, pending := [], parents := [] } : Actor).store = s from rfl, hj, hh]
      exact .self (I.tree.own _ _ I.tree.anc).2
    · rintro k r ⟨l, h, -⟩; cases h
    · intro r y h; cases h

/-- **Every reachable actor satisfies the invariant.** -/
theorem areach_ainv (ho : ∀ l, (c.order l).Perm l) (W : World c.E t vals bs a0 K)
    (hR : Ranks c.E.H K rank) {evs : List Event} (h : AReach c a0 body evs a)
    (hk : ∀ ev ∈ evs, EventK c.E.H K ev) :
    ∃ root anchor ops, AnchorOk c.E.H (State.fromGenesis c.E.H t vals) K root anchor ∧
      AInv c.E t vals a0 body K rank root anchor ops a := by
  induction h with
  | init hi =>
    obtain ⟨root, anchor, A, I⟩ := init_ainv W rank hi
    exact ⟨root, anchor, [], A, I⟩
  | step hr hs ih =>
    obtain ⟨root, anchor, ops, A, I⟩ := ih (fun ev he => hk ev (List.mem_cons_of_mem _ he))
    rcases I.step ho W A hR _ (hk _ List.mem_cons_self) with ⟨e, -⟩ | ⟨a', f, ops', e, I', -⟩
    · rw [e] at hs; cases hs
    · rw [e] at hs
      cases hs
      exact ⟨root, anchor, ops', A, I'⟩

end Verif.Node
