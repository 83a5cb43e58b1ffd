import Verif.Lemmas.ActorMaps
/-!
# The actor invariant and what processing one queued block does
-/
namespace Verif.Node
open Verif Verif.Db Verif.Buffers

/-- The actor's invariant: the node invariant and consistent pending maps. -/
structure AInv (E : Env) (t : Nat) (vals : List Validator) (a0 : State)
    (body : Option (List AggAtt)) (K : Header → Prop) (rank : Root → Nat) (root : Root)
    (anchor : State) (ops : List Db.Op) (a : Actor) : Prop where
  node : NInv E t vals a0 body K root anchor NoX ops a.store
  settled : Settled a.store
  maps : MInv rank root a.store.mem.db a.pending a.parents

/-- A rank that decreases along the known headers. -/
def Ranks (H : Hash) (K : Header → Prop) (rank : Root → Nat) : Prop :=
  ∀ h, K h → rank h.parentRoot < rank (H.header h)

variable {c : Ctx} {t : Nat} {vals : List Validator} {bs : List Block} {a0 : State}
  {body : Option (List AggAtt)} {K : Header → Prop} {rank : Root → Nat} {root : Root}
  {anchor : State} {ops : List Db.Op} {a : Actor} {s : Store}

theorem NInv.ranks {E : Env} {X : State → Prop} (W : World E t vals bs a0 K)
    (hR : Ranks E.H K rank) (I : NInv E t vals a0 body K root anchor X ops s) :
    ∀ r h, s.mem.db.headers.get? r = some h → rank h.parentRoot < rank r := by
  intro r h e
  obtain ⟨h1, h2⟩ := I.hdrK W r h e
  rw [← h2]
  exact hR h h1

theorem NInv.hasState_iff {E : Env} {X : State → Prop} (W : World E t vals bs a0 K)
    (I : NInv E t vals a0 body K root anchor X ops s) (r : Root) :
    hasState s.mem.db r = true ↔ ∃ st, stateOf root anchor ops r = some st := by
  rw [Db.hasState_iff (I.inv W).repr]
  exact Option.isSome_iff_exists

theorem Ext.settled {ops' : List Db.Op} {s' : Store} (x : Ext root anchor ops s ops' s')
    (h : Settled s) : Settled s' := by
  rcases x.keep with ⟨k1, k2⟩ | k
  · unfold Settled at *
    rw [k1, k2]
    exact h.mono x.headers
  · exact k

/-- Folding recovered aggregates in leaves the database alone. -/
theorem foldAggs_ok {E : Env} (l : List (AttData × Agg)) : ∀ {s : Store},
    NInv E t vals a0 body K root anchor NoX ops s →
    ∃ s', foldAggs E.H s l = .ok s' ∧ NInv E t vals a0 body K root anchor NoX ops s' ∧
      s'.mem = s.mem := by
  induction l with
  | nil => intro s I; exact ⟨s, rfl, I, rfl⟩
  | cons x l ih =>
    intro s I
    obtain ⟨b, e, g⟩ := good_push I.buf.new x.1 x.2
    have e1 : insertNewPayload E.H s x.1 x.2 =
        .ok { s with fc := Votes.insertNew E.H s.fc [(x.2.participants, x.1)], newP := b } := by
      unfold Node.insertNewPayload
      rw [e]
    have I1 := I.buffers (s' := { s with
      fc := Votes.insertNew E.H s.fc [(x.2.participants, x.1)], newP := b }) rfl
      ⟨g, I.buf.known, I.buf.gossip, I.buf.gossipBound⟩
    obtain ⟨s', e2, e3, e4⟩ := ih I1
    refine ⟨s', ?_, e3, e4⟩
    unfold foldAggs foldP
    rw [e1]
    exact e2

theorem MInv.congr {db db' : Db} {m : Pending} {ps : AMap Root Root} (M : MInv rank root db m ps)
    (h2 : ∀ r h, db.headers.get? r = some h → db'.headers.get? r = some h) :
    MInv rank root db' m ps :=
  ⟨fun k r h => by
    obtain ⟨q1, hd, q2, q3⟩ := M.child k r h
    exact ⟨q1, hd, h2 r hd q2, q3⟩,
   fun r x h => ⟨(M.par r x h).1, (M.par r x h).2.mono h2⟩⟩

/-- The outcomes of processing a queued block. -/
inductive Proc (c : Ctx) (root : Root) (anchor : State) (ops : List Db.Op) (a : Actor)
    (sb : SignedBlock) (ops' : List Db.Op) (o : Out) : Prop
  | reject
      (why : sb.block.slot ≤ a.store.mem.db.finalized.slot ∨
        sb.block.slot * 5 > a.store.mem.db.time + 1)
      (ops_eq : ops' = ops) (store : o.actor.store = a.store) (push : o.push = [])
      (rem : Removed a.pending a.parents [sb.block.root c.E.H] [] o.actor.pending o.actor.parents)
      (fetch : o.fetch = [])
  | pend
      (fin : a.store.mem.db.finalized.slot < sb.block.slot)
      (noState : hasState a.store.mem.db sb.block.parentRoot = false)
      (states : stateOf root anchor ops' = stateOf root anchor ops)
      (db : o.actor.store.mem.db =
        insertPendingBlock c.E.H a.store.mem.db (sb.block.root c.E.H) sb)
      (edges : ∀ k x, Edge a.pending k x → Edge o.actor.pending k x)
      (self : Edge o.actor.pending sb.block.parentRoot (sb.block.root c.E.H))
      (push : o.push = [] ∨ ∃ r b, o.push = [b] ∧ r ≠ root ∧
        getSignedBlock c.E.H o.actor.store.mem.db r = some b ∧
        hasState a.store.mem.db b.block.parentRoot = true)
      (size : waiting o.actor.pending ≤ waiting a.pending + a.store.mem.db.headers.length + 3)
      (fetch : (∃ r, o.push = [] ∧ o.fetch = [r] ∧ o.actor.store.mem.db.headers.get? r = none ∧
          Up o.actor.store.mem.db.headers root (sb.block.root c.E.H) r) ∨
        (o.fetch = [] ∧ ∃ r b, o.push = [b] ∧ r ≠ root ∧
          getSignedBlock c.E.H o.actor.store.mem.db r = some b ∧
          hasState a.store.mem.db b.block.parentRoot = true ∧
          Up o.actor.store.mem.db.headers root (sb.block.root c.E.H) r))
      (notFuture : ¬ sb.block.slot * 5 > a.store.mem.db.time + 1)
  | fail {s' : Store} {e : Err}
      (hasParent : hasState a.store.mem.db sb.block.parentRoot = true)
      (imp : Imported c.E root anchor ops a.store sb ops' s' (.error e))
      (actor : o.actor = { a with store := s' }) (push : o.push = []) (fetch : o.fetch = [])
  | done {s' : Store}
      (hasParent : hasState a.store.mem.db sb.block.parentRoot = true)
      (imp : Imported c.E root anchor ops a.store sb ops' s' (.ok ()))
      (mem : o.actor.store.mem = s'.mem)
      (pending : o.actor.pending = a.pending.erase (sb.block.root c.E.H))
      (push : o.push = (c.order ((a.pending.get? (sb.block.root c.E.H)).getD [])).filterMap
        (getSignedBlock c.E.H o.actor.store.mem.db))
      (parents : ∀ x y, o.actor.parents.get? x = some y → a.parents.get? x = some y)
      (fetch : o.fetch = [])

/-- The one way processing a block can panic: the walk over stored blocks ends at a block whose
signature is gone. -/
def ProofGone (H : Hash) (root : Root) (db : Db) : Prop :=
  ∃ r h, r ≠ root ∧ db.headers.get? r = some h ∧ hasState db h.parentRoot = true ∧
    getSignedBlock H db r = none

theorem insertPending_len (H : Hash) (db : Db) (r : Root) (sb : SignedBlock) :
    (insertPendingBlock H db r sb).headers.length ≤ db.headers.length + 1 := by
  show (db.headers.insert r _).length ≤ _
  generalize sb.block.header H = v
  induction db.headers with
  | nil => simp [AMap.insert]
  | cons x m ih =>
    obtain ⟨k, w⟩ := x
    unfold AMap.insert
    split
    · simp
    · simp only [List.length_cons]; omega

theorem hasState_write (H : Hash) (db : Db) (r x : Root) (sb : SignedBlock) :
    hasState (insertPendingBlock H db r sb) x = hasState db x := rfl

/-- Processing a queued block: it succeeds with one of the outcomes above and keeps the invariant,
or hits the unwrap at 1091. -/
theorem AInv.process (ho : ∀ l, (c.order l).Perm l) (W : World c.E t vals bs a0 K)
    (A : AnchorOk c.E.H (State.fromGenesis c.E.H t vals) K root anchor)
    (hR : Ranks c.E.H K rank)
    (I : AInv c.E t vals a0 body K rank root anchor ops a) (sb : SignedBlock)
    (hk : K (sb.block.header c.E.H)) :
    (a.process c sb = .error 1091 ∧ hasState a.store.mem.db sb.block.parentRoot = false ∧
      ProofGone c.E.H root
        (insertPendingBlock c.E.H a.store.mem.db (sb.block.root c.E.H) sb)) ∨
    ∃ o ops', a.process c sb = .ok o ∧ AInv c.E t vals a0 body K rank root anchor ops' o.actor ∧
      Ext root anchor ops a.store ops' o.actor.store ∧ Proc c root anchor ops a sb ops' o := by
  have N := I.node
  have hrej : (sb.block.slot ≤ a.store.mem.db.finalized.slot ∨
        sb.block.slot * 5 > a.store.mem.db.time + 1) →
      ∃ a1, a.discard c (sb.block.root c.E.H) = .ok a1 ∧
        AInv c.E t vals a0 body K rank root anchor ops a1 ∧
        Ext root anchor ops a.store ops a1.store ∧
        Proc c root anchor ops a sb ops ⟨a1, [], []⟩ := by
    intro why
    obtain ⟨m', ps', e, R⟩ := discard_removed ho (a.pending.length + 1) (sb.block.root c.E.H)
      a.pending a.parents (Nat.lt_succ_self _)
    refine ⟨{ a with pending := m', parents := ps' }, ?_, ⟨N, I.settled, ?_, ?_⟩, .refl,
      .reject why rfl rfl rfl R rfl⟩
    · unfold Actor.discard; rw [e]
    · intro k x hx; exact I.maps.child k x (R.sub.edge hx)
    · intro x y hxy; exact I.maps.par x y (R.par_sub hxy)
  unfold Actor.process
  simp only
  by_cases h1 : sb.block.slot ≤ a.store.mem.db.finalized.slot
  · rw [if_pos h1]
    obtain ⟨a1, e, r⟩ := hrej (.inl h1)
    rw [e]
    exact .inr ⟨_, _, rfl, r⟩
  rw [if_neg h1]
  by_cases h2 : sb.block.slot * intervalsPerSlot > a.store.mem.db.time + gossipDisparity
  · rw [if_pos h2]
    obtain ⟨a1, e, r⟩ := hrej (.inr (by
      simp only [intervalsPerSlot, gossipDisparity] at h2; exact h2))
    rw [e]
    exact .inr ⟨_, _, rfl, r⟩
  rw [if_neg h2]
  have hfin := Nat.lt_of_not_le h1
  by_cases h3 : hasState a.store.mem.db sb.block.parentRoot = true
  · rw [if_neg (by simpa using h3)]
    obtain ⟨s', ops', r, e, I', x⟩ := N.imported W A sb hk
    rw [e]
    have hgrow : ∀ y, hasState a.store.mem.db y = true → hasState s'.mem.db y = true := by
      intro y hy
      rw [N.hasState_iff W] at hy
      rw [I'.hasState_iff W]
      obtain ⟨st, hs⟩ := hy
      exact ⟨st, x.ext.states y st hs⟩
    cases r with
    | error er =>
      refine .inr ⟨⟨{ a with store := s' }, [], []⟩, ops', rfl, ⟨I', x.ext.settled I.settled, ?_⟩,
        x.ext, .fail h3 x rfl rfl rfl⟩
      have hdb := x.err er rfl
      exact I.maps.congr (by
        rw [show (({ a with store := s' } : Actor).store.mem.db) = _ from hdb]
        exact fun _ _ h => h)
    | ok u =>
      obtain ⟨s2, e2, I2, hm⟩ := foldAggs_ok (c.reagg s' sb) I'
      simp only
      rw [e2]
      simp only
      have x2 : Ext root anchor ops a.store ops' s2 :=
        ⟨x.ext.states, by rw [hm]; exact x.ext.headers, by rw [hm]; exact x.ext.just, by
          unfold Settled; rw [hm]; exact x.ext.keep⟩
      obtain ⟨stn, hstn⟩ := x.ok rfl
      have hnow : hasState s'.mem.db (sb.block.root c.E.H) = true :=
        (I'.hasState_iff W _).2 ⟨stn, hstn⟩
      have hchild : ∀ k y, Edge a.pending k y → y ≠ root ∧
          ∃ h, s2.mem.db.headers.get? y = some h ∧ h.parentRoot = k := by
        intro k y hy
        obtain ⟨q1, h, q2, q3⟩ := I.maps.child k y hy
        exact ⟨q1, h, x2.headers y h q2, q3⟩
      have hpar : ∀ y z, a.parents.get? y = some z →
          (z ≠ root ∧ rank z < rank y) ∧ Up s2.mem.db.headers root y z := fun y z h =>
        ⟨(I.maps.par y z h).1, (I.maps.par y z h).2.mono x2.headers⟩
      unfold Actor.collect
      simp only
      cases hg : a.pending.get? (sb.block.root c.E.H) with
      | none =>
        simp only
        refine .inr ⟨_, ops', rfl, ⟨I2, x2.settled I.settled, hchild, hpar⟩, x2,
          .done h3 x hm ?_ ?_ (fun _ _ h => h) rfl⟩
        · exact (erase_of_none hg).symm
        · rw [hg]
          have : c.order [] = [] := List.Perm.eq_nil (ho [])
          simp [this]
      | some l =>
        simp only
        refine .inr ⟨_, ops', rfl, ⟨I2, x2.settled I.settled, ?_, ?_⟩, x2,
          .done h3 x hm rfl ?_ ?_ rfl⟩
        · intro k y hy
          exact hchild k y ((SubMap.erase _ _).edge hy)
        · intro y z hyz
          exact hpar y z (loadChildren_snd _ _ _ _ _ _ hyz)
        · rw [hg]
          exact loadChildren_fst _ _ _ _
        · intro y z hyz
          exact loadChildren_snd _ _ _ _ _ _ hyz
  · rw [if_pos h3]
    have h3' : hasState a.store.mem.db sb.block.parentRoot = false := by
      cases h : hasState a.store.mem.db sb.block.parentRoot
      · rfl
      · exact absurd h h3
    have hroot : hasState a.store.mem.db root = true :=
      (N.hasState_iff W _).2 ⟨anchor, N.tree.anc⟩
    have hpr : sb.block.parentRoot ≠ root := fun h => h3 (by rw [h]; exact hroot)
    have hsr : sb.block.root c.E.H ≠ root := by
      intro h
      have k1 := A.known
      have := W.collisionFree _ _ hk k1 (h.trans A.root.symm)
      have hs : sb.block.slot = anchor.latestBlockHeader.slot := by rw [← this]; rfl
      have := N.anchor_le_fin
      rw [A.slot] at hs
      omega
    obtain ⟨s1, ops', e1, I1, x1⟩ := N.succeeds_pending W A sb hk hfin
    have e1 := (Except.ok.inj e1).symm
    have hops : stateOf root anchor ops' = stateOf root anchor ops := by
      funext r
      have k1 := I1.hasState_iff W r
      have k2 := N.hasState_iff W r
      have k3 : hasState s1.mem.db r = hasState a.store.mem.db r := by rw [e1]; rfl
      cases hr : stateOf root anchor ops r with
      | some st => exact x1.states r st hr
      | none =>
        cases hr' : stateOf root anchor ops' r with
        | none => rfl
        | some st =>
          have := k1.2 ⟨st, hr'⟩
          rw [k3] at this
          obtain ⟨st', h⟩ := k2.1 this
          rw [hr] at h; cases h
    unfold Actor.pend
    simp only
    obtain ⟨mi, c1, c2, c3, c4⟩ := climb_ok I.maps.par (a.parents.length + 1) sb.block.parentRoot
      (Nat.lt_succ_of_le List.countP_le_length) hpr
    rw [c1]
    simp only
    have hdb : s1.mem.db = insertPendingBlock c.E.H a.store.mem.db (sb.block.root c.E.H) sb := by
      rw [e1]
    rw [← hdb]
    have hrk := I1.ranks W hR
    have hroot1 : hasState s1.mem.db root = true := by rw [hdb]; exact hroot
    have hself : s1.mem.db.headers.get? (sb.block.root c.E.H) = some (sb.block.header c.E.H) := by
      rw [hdb]; exact AMap.get?_insert_self _ _ _
    have hmi : Up s1.mem.db.headers root (sb.block.root c.E.H) mi := by
      rcases c4 with rfl | c4
      · exact .one hself hsr
      · exact .more hself hsr (c4.mono x1.headers)
    have hup : ∀ x, (x = mi ∨ Up s1.mem.db.headers root mi x) →
        Up s1.mem.db.headers root (sb.block.root c.E.H) x := by
      rintro x (rfl | h)
      · exact hmi
      · exact hmi.trans h
    have hfut : ¬ sb.block.slot * 5 > a.store.mem.db.time + 1 := by
      simp only [intervalsPerSlot, gossipDisparity] at h2; exact h2
    have M1 : MInv rank root s1.mem.db
        (addChild a.pending sb.block.parentRoot (sb.block.root c.E.H))
        (a.parents.insert (sb.block.root c.E.H) mi) := by
      refine ⟨?_, ?_⟩
      · intro k y hy
        rcases addChild_edge.1 hy with hy | ⟨rfl, rfl⟩
        · obtain ⟨q1, h, q2, q3⟩ := I.maps.child k y hy
          exact ⟨q1, h, x1.headers y h q2, q3⟩
        · exact ⟨hsr, _, hself, rfl⟩
      · intro y z hyz
        rw [AMap.get?_insert] at hyz
        split at hyz
        next hh =>
          cases hyz
          rw [← hh]
          exact ⟨⟨c2, Nat.lt_of_le_of_lt c3 (hR _ hk)⟩, hmi⟩
        · exact ⟨(I.maps.par y z hyz).1, (I.maps.par y z hyz).2.mono x1.headers⟩
    obtain ⟨we, m', ps', w1, w2, w3, w4, w5, w6⟩ := walkUp_ok hrk hroot1 (s1.mem.db.headers.length + 1)
      mi _ _ (below_le rank _ _) c2 M1
    have hlen : s1.mem.db.headers.length ≤ a.store.mem.db.headers.length + 1 := by
      rw [hdb]; exact insertPending_len _ _ _ _
    have hwait := waiting_addChild a.pending sb.block.parentRoot (sb.block.root c.E.H)
    have hedge : ∀ k x, Edge a.pending k x → Edge m' k x :=
      fun k x h => w3 k x (addChild_edge.2 (.inl h))
    have hst : ({ a.store with mem := { a.store.mem with db := s1.mem.db } } : Store) = s1 := by
      rw [e1]
    rw [w1, hst]
    cases we with
    | fetch r =>
      simp only
      exact .inr ⟨_, ops', rfl, ⟨I1, x1.settled I.settled, w2⟩, x1,
        .pend hfin h3' hops hdb hedge (w3 _ _ (addChild_edge.2 (.inr ⟨rfl, rfl⟩))) (.inl rfl)
          (by show waiting m' ≤ _; omega)
          (.inl ⟨r, rfl, rfl, (w6 r rfl).2, hup r (w6 r rfl).1⟩) hfut⟩
    | enqueue r =>
      obtain ⟨y1, y0, hd, y2, y3⟩ := w5 r rfl
      simp only
      cases hg : getSignedBlock c.E.H s1.mem.db r with
      | none => exact .inl ⟨rfl, h3', r, hd, y1, y2, y3, hg⟩
      | some b =>
        obtain ⟨-, -, q⟩ := I1.loaded W y1 hg
        rw [q] at y2
        cases y2
        have y3 : hasState s1.mem.db b.block.parentRoot = true := y3
        rw [hdb] at y3
        exact .inr ⟨_, ops', rfl, ⟨I1, x1.settled I.settled, w2⟩, x1,
        .pend hfin h3' hops hdb hedge (w3 _ _ (addChild_edge.2 (.inr ⟨rfl, rfl⟩)))
          (.inr ⟨r, b, rfl, y1, hg, y3⟩) (by show waiting m' ≤ _; omega)
          (.inr ⟨rfl, r, b, rfl, y1, hg, y3, hup r y0⟩) hfut⟩

/-! ## The queue loop -/

/-- Every queued block's parent has a state. -/
def Ready (db : Db) (q : List SignedBlock) : Prop :=
  ∀ x ∈ q, hasState db x.block.parentRoot = true

theorem Ext.hasState {E : Env} {ops' : List Db.Op} {s' : Store} {X Y : State → Prop}
    (W : World E t vals bs a0 K) (I : NInv E t vals a0 body K root anchor X ops s)
    (I' : NInv E t vals a0 body K root anchor Y ops' s') (x : Ext root anchor ops s ops' s')
    {r : Root} (h : hasState s.mem.db r = true) : hasState s'.mem.db r = true := by
  rw [I.hasState_iff W] at h
  rw [I'.hasState_iff W]
  obtain ⟨st, h⟩ := h
  exact ⟨st, x.states r st h⟩

/-- One step of the loop: what is pushed is known, and the work left decreases once every queued
block's parent is there. -/
theorem Proc.queue (ho : ∀ l, (c.order l).Perm l) (W : World c.E t vals bs a0 K)
    {sb : SignedBlock} {ops' : List Db.Op} {o : Out}
    (I : AInv c.E t vals a0 body K rank root anchor ops a)
    (I' : AInv c.E t vals a0 body K rank root anchor ops' o.actor)
    (x : Ext root anchor ops a.store ops' o.actor.store)
    (p : Proc c root anchor ops a sb ops' o) :
    (∀ b ∈ o.push, K (b.block.header c.E.H)) ∧ Ready o.actor.store.mem.db o.push ∧
      (hasState a.store.mem.db sb.block.parentRoot = true →
        waiting o.actor.pending + o.push.length ≤ waiting a.pending) ∧
      waiting o.actor.pending + o.push.length ≤
        waiting a.pending + a.store.mem.db.headers.length + 4 := by
  cases p with
  | reject why h1 h2 h3 R =>
    have := waiting_sublist R.sl
    rw [h3]
    refine ⟨fun b hb => absurd hb List.not_mem_nil, fun b hb => absurd hb List.not_mem_nil,
      fun _ => ?_, ?_⟩ <;> simp only [List.length_nil] <;> omega
  | pend h1 h2 h3 h4 h5 h6 h7 h8 =>
    refine ⟨?_, ?_, (fun h => by rw [h2] at h; cases h), ?_⟩
    · intro b hb
      rcases h7 with h7 | ⟨r, b', h7, h9, h10, h11⟩
      · rw [h7] at hb; cases hb
      · rw [h7, List.mem_singleton] at hb
        subst hb
        exact (I'.node.loaded W h9 h10).1
    · intro b hb
      rcases h7 with h7 | ⟨r, b', h7, h9, h10, h11⟩
      · rw [h7] at hb; cases hb
      · rw [h7, List.mem_singleton] at hb
        subst hb
        exact x.hasState W I.node I'.node h11
    · rcases h7 with h7 | ⟨r, b', h7, -⟩
      · rw [h7]; simp only [List.length_nil]; omega
      · rw [h7]; simp only [List.length_singleton]; omega
  | fail h1 h2 h3 h4 =>
    rw [h4, h3]
    refine ⟨fun b hb => absurd hb List.not_mem_nil, fun b hb => absurd hb List.not_mem_nil,
      fun _ => ?_, ?_⟩ <;> simp only [List.length_nil] <;> omega
  | done h1 h2 h3 h4 h5 h6 =>
    have hpush : ∀ b ∈ o.push, ∃ r, Edge a.pending (sb.block.root c.E.H) r ∧
        getSignedBlock c.E.H o.actor.store.mem.db r = some b := by
      intro b hb
      rw [h5, List.mem_filterMap] at hb
      obtain ⟨r, hr, hg⟩ := hb
      refine ⟨r, ?_, hg⟩
      have hr := (ho _).mem_iff.1 hr
      cases e : a.pending.get? (sb.block.root c.E.H) with
      | none => rw [e] at hr; cases hr
      | some l => rw [e] at hr; exact ⟨l, e, hr⟩
    obtain ⟨st, hst⟩ := h2.ok rfl
    have hnow : hasState o.actor.store.mem.db (sb.block.root c.E.H) = true :=
      (I'.node.hasState_iff W _).2 ⟨st, hst⟩
    have hlen : o.push.length ≤ ((a.pending.get? (sb.block.root c.E.H)).getD []).length := by
      rw [h5]
      refine Nat.le_trans (List.length_filterMap_le _ _) ?_
      rw [(ho _).length_eq]
    have hw : waiting o.actor.pending + o.push.length ≤ waiting a.pending := by
      rw [h4]
      cases e : a.pending.get? (sb.block.root c.E.H) with
      | none =>
        rw [e] at hlen
        rw [erase_of_none e]
        simp only [Option.getD_none, List.length_nil] at hlen
        omega
      | some l =>
        have := waiting_erase e
        rw [e] at hlen
        simp only [Option.getD_some] at hlen
        omega
    refine ⟨?_, ?_, fun _ => hw, by omega⟩
    · intro b hb
      obtain ⟨r, hr, hg⟩ := hpush b hb
      exact (I'.node.loaded W (I.maps.child _ _ hr).1 hg).1
    · intro b hb
      obtain ⟨r, hr, hg⟩ := hpush b hb
      obtain ⟨q1, hd, q2, q3⟩ := I.maps.child _ _ hr
      have q4 := (I'.node.loaded W q1 hg).2.2
      have q5 := x.headers _ _ q2
      rw [q4] at q5
      cases q5
      have : b.block.parentRoot = sb.block.root c.E.H := q3
      rw [this]
      exact hnow

/-- A property of the actor and its queue that each step of the loop keeps. The second alternative
is the first step, for a block whose parent may be missing. -/
def Kept (c : Ctx) (t : Nat) (vals : List Validator) (a0 : State) (body : Option (List AggAtt))
    (K : Header → Prop) (rank : Root → Nat) (root : Root) (anchor : State)
    (J : List Db.Op → Actor → List SignedBlock → Prop) : Prop :=
  ∀ ops a sb q ops' o, AInv c.E t vals a0 body K rank root anchor ops a →
    AInv c.E t vals a0 body K rank root anchor ops' o.actor → K (sb.block.header c.E.H) →
    Ext root anchor ops a.store ops' o.actor.store →
    (hasState a.store.mem.db sb.block.parentRoot = true ∨ q = []) →
    Ready a.store.mem.db q → a.process c sb = .ok o → Proc c root anchor ops a sb ops' o →
    J ops a (sb :: q) → J ops' o.actor (q ++ o.push)

theorem AInv.drain (ho : ∀ l, (c.order l).Perm l) (W : World c.E t vals bs a0 K)
    (A : AnchorOk c.E.H (State.fromGenesis c.E.H t vals) K root anchor)
    (hR : Ranks c.E.H K rank) {J : List Db.Op → Actor → List SignedBlock → Prop}
    (hJ : Kept c t vals a0 body K rank root anchor J) :
    ∀ (n : Nat) {ops : List Db.Op} {a : Actor} (q : List SignedBlock),
      AInv c.E t vals a0 body K rank root anchor ops a →
      (∀ b ∈ q, K (b.block.header c.E.H)) → Ready a.store.mem.db q → J ops a q →
      waiting a.pending + q.length ≤ n →
      ∃ a' f ops', drain c n a q = .ok (a', f) ∧
        AInv c.E t vals a0 body K rank root anchor ops' a' ∧
        Ext root anchor ops a.store ops' a'.store ∧ J ops' a' [] := by
  intro n
  induction n with
  | zero =>
    intro ops a q I hk hr hj hn
    cases q with
    | nil => exact ⟨a, [], ops, by unfold Node.drain; rfl, I, .refl, hj⟩
    | cons x q => simp only [List.length_cons] at hn; omega
  | succ n ih =>
    intro ops a q I hk hr hj hn
    cases q with
    | nil => exact ⟨a, [], ops, by unfold Node.drain; rfl, I, .refl, hj⟩
    | cons sb q =>
      have hp := hr sb List.mem_cons_self
      rcases I.process ho W A hR sb (hk sb List.mem_cons_self) with ⟨-, h, -⟩ | ⟨o, ops1, e, I1, x1, p⟩
      · rw [h] at hp; cases hp
      · obtain ⟨q1, q2, q3, -⟩ := p.queue ho W I I1 x1
        have q3 := q3 hp
        simp only [List.length_cons] at hn
        have hrq : Ready a.store.mem.db q := fun b hb => hr b (List.mem_cons_of_mem _ hb)
        obtain ⟨a', f, ops', e2, I2, x2, j2⟩ := ih (q ++ o.push) I1 (by
            intro b hb
            rcases List.mem_append.1 hb with hb | hb
            · exact hk b (List.mem_cons_of_mem _ hb)
            · exact q1 b hb) (by
            intro b hb
            rcases List.mem_append.1 hb with hb | hb
            · exact x1.hasState W I.node I1.node (hrq b hb)
            · exact q2 b hb)
          (hJ _ _ _ _ _ _ I I1 (hk sb List.mem_cons_self) x1 (.inl hp) hrq e p hj)
          (by rw [List.length_append]; omega)
        refine ⟨a', o.fetch ++ f, ops', ?_, I2, x1.trans x2, j2⟩
        unfold Node.drain
        rw [e]
        simp only
        rw [e2]

/-- The whole loop, starting from one received block. -/
theorem AInv.drain_one (ho : ∀ l, (c.order l).Perm l) (W : World c.E t vals bs a0 K)
    (A : AnchorOk c.E.H (State.fromGenesis c.E.H t vals) K root anchor)
    (hR : Ranks c.E.H K rank) {J : List Db.Op → Actor → List SignedBlock → Prop}
    (hJ : Kept c t vals a0 body K rank root anchor J)
    (I : AInv c.E t vals a0 body K rank root anchor ops a) (sb : SignedBlock)
    (hk : K (sb.block.header c.E.H)) (hj : J ops a [sb]) :
    (Node.drain c (waiting a.pending + a.store.mem.db.headers.length + 5) a [sb] = .error 1091 ∧
      hasState a.store.mem.db sb.block.parentRoot = false ∧
      ProofGone c.E.H root
        (insertPendingBlock c.E.H a.store.mem.db (sb.block.root c.E.H) sb)) ∨
    ∃ a' f ops', Node.drain c (waiting a.pending + a.store.mem.db.headers.length + 5) a [sb] =
        .ok (a', f) ∧
      AInv c.E t vals a0 body K rank root anchor ops' a' ∧
      Ext root anchor ops a.store ops' a'.store ∧ J ops' a' [] := by
  unfold Node.drain
  rcases I.process ho W A hR sb hk with ⟨h1, h2, h3⟩ | ⟨o, ops1, e, I1, x1, p⟩
  · rw [h1]; exact .inl ⟨rfl, h2, h3⟩
  · right
    rw [e]
    simp only [List.nil_append]
    obtain ⟨q1, q2, -, q4⟩ := p.queue ho W I I1 x1
    obtain ⟨a', f, ops', e2, I2, x2, j2⟩ := AInv.drain ho W A hR hJ
      (waiting a.pending + a.store.mem.db.headers.length + 4) o.push I1 q1 q2
      (hJ _ _ _ [] _ _ I I1 hk x1 (.inr rfl) (fun b hb => absurd hb List.not_mem_nil) e p hj) q4
    rw [e2]
    exact ⟨a', _, ops', rfl, I2, x1.trans x2, j2⟩

/-! ## Whole events -/

theorem AInv.pruned (I : AInv c.E t vals a0 body K rank root anchor ops a) :
    ∃ db ops', pruneOldData a.store.mem.db = .ok db ∧
      AInv c.E t vals a0 body K rank root anchor ops'
        { a with store := { a.store with mem := { a.store.mem with db := db } } } ∧
      Ext root anchor ops a.store ops'
        { a.store with mem := { a.store.mem with db := db } } := by
  obtain ⟨s', ops', e, I', x⟩ := I.node.succeeds_prune
  have e : (match pruneOldData a.store.mem.db with
    | .error e => .error e
    | .ok db => .ok { a.store with mem := { a.store.mem with db := db } } : P Store) = .ok s' := e
  split at e
  · cases e
  next db hdb =>
    cases e
    refine ⟨db, ops', hdb, ⟨I', x.settled I.settled, I.maps.congr x.headers⟩, x⟩

/-- `on_block` succeeds unless the unwrap at 1091 fails. -/
theorem AInv.onBlock (ho : ∀ l, (c.order l).Perm l) (W : World c.E t vals bs a0 K)
    (A : AnchorOk c.E.H (State.fromGenesis c.E.H t vals) K root anchor)
    (hR : Ranks c.E.H K rank) {J : List Db.Op → Actor → List SignedBlock → Prop}
    (hJ : Kept c t vals a0 body K rank root anchor J)
    (I : AInv c.E t vals a0 body K rank root anchor ops a) (sb : SignedBlock)
    (hk : K (sb.block.header c.E.H)) (hj : J ops a [sb]) :
    (a.onBlock c sb = .error 1091 ∧ hasState a.store.mem.db sb.block.parentRoot = false ∧
      ProofGone c.E.H root
        (insertPendingBlock c.E.H a.store.mem.db (sb.block.root c.E.H) sb)) ∨
    ∃ a1 a' f ops1 ops' db, a.onBlock c sb = .ok (a', f) ∧
      AInv c.E t vals a0 body K rank root anchor ops1 a1 ∧ J ops1 a1 [] ∧
      pruneOldData a1.store.mem.db = .ok db ∧
      a' = { a1 with store := { a1.store with mem := { a1.store.mem with db := db } } } ∧
      AInv c.E t vals a0 body K rank root anchor ops' a' ∧
      Ext root anchor ops a.store ops1 a1.store ∧
      Ext root anchor ops1 a1.store ops' a'.store := by
  unfold Actor.onBlock
  rcases I.drain_one ho W A hR hJ sb hk hj with ⟨h1, h2, h3⟩ | ⟨a1, f, ops1, e, I1, x1, j1⟩
  · rw [h1]; exact .inl ⟨rfl, h2, h3⟩
  · right
    obtain ⟨db, ops', e2, I2, x2⟩ := I1.pruned
    rw [e]
    simp only
    rw [e2]
    exact ⟨a1, _, f, ops1, ops', db, rfl, I1, j1, e2, rfl, I2, x1, x2⟩

end Verif.Node
