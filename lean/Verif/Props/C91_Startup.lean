import Verif.Model.Startup
import Verif.Props.C54_CheckpointState
import Verif.Props.C55_AnchorFetch
import Verif.Lemmas.Held
import Verif.Props.C82_Counted
/-!
# C91: where a node starts

The data directory decides: a foreign chain is refused, the own chain is resumed unless it is stale
and checkpoint URLs are configured, and only an empty directory is initialized from genesis.
-/
namespace Verif.Boot
open Verif Verif.Db Verif.Node Verif.Ckpt

variable {c : Ctx} {t : Nat} {entries : List (Nat × Nat)} {bs : List Block} {a0 : State}
  {body : Option (List AggAtt)} {evs : List Event} {a : Actor}
  {replies : Nat → Nat → Option State × Option SignedBlock} {now : Nat} {urls : List Nat}

/-- `init_store` over nothing is `init_store`. -/
theorem initStoreOver_empty (E : Env) (anchor : State) (body : Option (List AggAtt)) :
    initStoreOver E.H emptyDb anchor body = Node.init E anchor body := by
  unfold initStoreOver Node.init initOver initStore
  simp only
  by_cases h : ¬ (anchor.latestBlockHeader.stateRoot = 0 ∨ anchor.latestBlockHeader.stateRoot =
      E.H.state { anchor with latestBlockHeader := { anchor.latestBlockHeader with stateRoot := 0 } })
  · rw [if_pos h, if_pos h]
  · rw [if_neg h, if_neg h]
    cases body <;> rfl

/-- **C91.** A data directory whose finalized state is not of this network is refused and left
untouched, whatever the clock, the URLs and the servers say. -/
theorem C91_foreign (H : Hash) (d : Disk) {st : State} {s : Store}
    (h : (openStore d).getState d.db.finalized.root = .ok (some st, s))
    (hf : ¬ BelongsTo st t (genesisValidators entries)) :
    ∃ e, fetchInitialState H (some d) t entries now urls replies =
      .ok (.error (.genesisMismatch e), some d) := by
  unfold fetchInitialState fromDbState
  simp only [h]
  cases e : verifyStateGenesis st t (genesisValidators entries) with
  | error x => exact ⟨x, rfl⟩
  | ok u => exact absurd ((verifyStateGenesis_iff _ _ _).1 e) hf

/-- Every state of a node has the genesis time of the network. -/
theorem state_time {E : Env} {s : Store} {vals : List Validator} {K : Header → Prop} {root : Root}
    {anchor : State} {ops : List Db.Op} (W : World E t vals bs a0 K)
    (I : NInv E t vals a0 body K root anchor NoX ops s)
    {r : Root} {st : State} (h : stateOf root anchor ops r = some st) : st.genesisTime = t := by
  by_cases hr : r = root
  · rw [hr, I.tree.anc] at h
    cases h
    obtain ⟨m, -, -, -, h3, -⟩ := I.started
    rw [h3]
    exact (chain_genesisTime W.chain : a0.genesisTime = t)
  · obtain ⟨cs, -, hc⟩ := I.tree.good r st h hr
    exact chain_genesisTime hc

/-- What `from_db_state` makes of the directory a node leaves behind. -/
theorem fromDb_own (ho : ∀ l, (c.order l).Perm l)
    (W : World c.E t (genesisValidators entries) bs a0
      (Known c.E.H (State.fromGenesis c.E.H t (genesisValidators entries)) bs evs))
    (h : AReach c a0 body evs a) :
    ∃ s' h', fromDbState (some (Store.disk a.store)) t (genesisValidators entries) =
        .ok (.ok (some s')) ∧
      s'.mem.db = a.store.mem.db ∧ a.store.header a.store.mem.db.head = some h' ∧
      AReach c a0 body (.read a.store.mem.db.finalized.root :: .restart :: evs)
        { store := s', pending := [], parents := [] } := by
  obtain ⟨rank, hR⟩ := W.acyclic
  have e1 : a.step c .restart = .ok ({ store := openStore (Store.disk a.store), pending := []
                                       parents := [] }, []) := rfl
  have R1 := AReach.step h e1
  obtain ⟨root, anchor, ops, A, I⟩ := areach_ainv ho W hR R1 (by
    intro ev he
    rcases List.mem_cons.1 he with rfl | he
    · exact trivial
    · exact eventK_known ev he)
  obtain ⟨st, hf, -⟩ := I.node.cp.fin
  obtain ⟨sh, hh⟩ := I.node.cp.head
  obtain ⟨s', g1, g2, -, -⟩ := I.node.getState W a.store.mem.db.finalized.root
  rw [show stateOf root anchor ops a.store.mem.db.finalized.root = some st from hf] at g1
  refine ⟨s', sh.latestBlockHeader, ?_, g2, (I.node.tree.own _ _ hh).2, .step R1 (f := []) ?_⟩
  · have e : fromDbState (some (Store.disk a.store)) t (genesisValidators entries) =
        (match (openStore (Store.disk a.store)).getState a.store.mem.db.finalized.root with
        | .error e => .error e
        | .ok (none, _) => .ok (.error .missingState)
        | .ok (some st, s) =>
          match verifyStateGenesis st t (genesisValidators entries) with
          | .error e => .ok (.error (.genesisMismatch e))
          | .ok () => .ok (.ok (some s))) := rfl
    rw [e, g1]
    have hb : verifyStateGenesis st t (genesisValidators entries) = .ok () := by
      rw [verifyStateGenesis_iff]
      have hv := state_vals W I.node hf
      refine ⟨state_time W I.node hf, by rw [hv], fun i x y h1 h2 => ?_⟩
      rw [hv, h2] at h1
      cases h1
      refine ⟨?_, rfl, rfl⟩
      unfold genesisValidators at h2
      rw [List.getElem?_mapIdx] at h2
      obtain ⟨z, -, rfl⟩ := Option.map_eq_some_iff.1 h2
      rfl
    simp only [hb]
  · show (match Node.step c.E (openStore (Store.disk a.store))
        (.read a.store.mem.db.finalized.root) with
      | .error e => .error e
      | .ok s => .ok ({ store := s, pending := [], parents := [] }, []) : P (Actor × List Root)) = _
    have : Node.step c.E (openStore (Store.disk a.store)) (.read a.store.mem.db.finalized.root) =
        .ok s' := by
      show (match (openStore (Store.disk a.store)).getState a.store.mem.db.finalized.root with
        | .error e => .error e
        | .ok (_, s) => .ok s : P Store) = _
      rw [g1]
    rw [this]

/-- **C91.** Whatever a node has been through, when it is started again on its data directory it
recognizes its own chain. If the head is at most 450 slots behind the wall clock, or if no URL is
configured, it resumes: with the same database, as after the event `restart`, so that everything
shown about histories with restarts holds. -/
theorem C91_resume (ho : ∀ l, (c.order l).Perm l)
    (W : World c.E t (genesisValidators entries) bs a0
      (Known c.E.H (State.fromGenesis c.E.H t (genesisValidators entries)) bs evs))
    (h : AReach c a0 body evs a) {hd : Header}
    (hh : a.store.mem.db.headers.get? a.store.mem.db.head = some hd)
    (hw : (now - t * 1000) / 4000 ≤ hd.slot + 450 ∨ urls = []) :
    ∃ s', fetchInitialState c.E.H (some (Store.disk a.store)) t entries now urls replies =
        .ok (.ok s', some (Store.disk a.store)) ∧
      s'.mem.db = a.store.mem.db ∧
      AReach c a0 body (.read a.store.mem.db.finalized.root :: .restart :: evs)
        { store := s', pending := [], parents := [] } := by
  obtain ⟨s', h', e1, e2, e3, e4⟩ := fromDb_own ho W h
  refine ⟨s', ?_, e2, e4⟩
  have e5 : s'.header s'.mem.db.head = some hd := by
    unfold Store.header
    rw [e2, hh]
  unfold fetchInitialState
  simp only [e1, e5]
  rw [if_pos]
  rcases hw with hw | hw
  · left
    unfold maxResumableAge
    omega
  · exact .inr hw

/-- **C91.** Genesis is written only into a directory that holds no chain, and only if no URL is
configured. -/
theorem C91_genesis (E : Env) {s : Store}
    (h : Node.init E (State.fromGenesis E.H t (genesisValidators entries)) none = .ok s) :
    fetchInitialState E.H none t entries now [] replies = .ok (.ok s, some (Store.disk s)) := by
  unfold fetchInitialState fromDbState
  simp only [if_true, initStoreOver_empty E, h]

/-- A start by checkpoint sync: given up with the directory unchanged, or from an anchor that one of
the URLs delivered and that passed verification. -/
inductive Synced (H : Hash) (disk : Option Disk) (t : Nat) (entries : List (Nat × Nat))
    (urls : List Nat) (replies : Nat → Nat → Option State × Option SignedBlock) :
    Except StartErr Store × Option Disk → Prop
  | failed (e : SyncErr) : (∀ u ∈ urls, ∃ n, ∀ x,
        anchorOutcome H t (genesisValidators entries) (replies n u) ≠ .ok x) →
      Synced H disk t entries urls replies (.error (.sync e), disk)
  | anchor {n u : Nat} {st : State} {sb : SignedBlock} {s : Store} : u ∈ urls →
      replies n u = (some st, some sb) →
      0 < st.slot → st.genesisTime = t → st.validators = genesisValidators entries →
      Ordered H st → anchorPairIsConsistent H st sb.block = true →
      s.mem.db.head = sb.block.root H → s.mem.db.safeTarget = sb.block.root H →
      s.mem.db.finalized = ⟨sb.block.root H, sb.block.slot⟩ →
      s.mem.db.justified = ⟨sb.block.root H, sb.block.slot⟩ →
      s.mem.db.states.get? (sb.block.root H) =
        some (withStateRoot st sb.block.stateRoot) →
      ((H.body sb.block.body = H.body [] → sb.block.body = []) →
        getSignedBlock H s.mem.db (sb.block.root H) = some sb) →
      Synced H disk t entries urls replies (.ok s, some (Store.disk s))

theorem retried_ok {A : Type} {urls : List Nat} {left : Nat} {log : Log A} {r : Except SyncErr A}
    (h : Retried urls left log r) : (∀ a, r = .ok a → ∃ u ∈ urls, (u, .ok a) ∈ log) ∧
    (∀ e, r = .error e → ∀ u ∈ urls, ∃ o, (u, o) ∈ log ∧ ∀ a, o ≠ .ok a) := by
  induction h with
  | last hp _ =>
    refine ⟨fun a ha => ?_, fun e he u hu => ?_⟩
    · cases hp with
      | @ok pre post u l seg e a' hu hall hd =>
        cases ha
        obtain ⟨n, -, rfl⟩ := hd
        exact ⟨u, by rw [hu]; simp, by simp⟩
      | error _ => cases ha
      | noUrls _ => cases ha
    · cases hp with
      | ok _ _ _ => cases he
      | error hall =>
        obtain ⟨x, hx, rfl⟩ := hall.mem_ne_ok.2 u hu
        exact ⟨x.2, hx, (hall.mem_ne_ok.1 x hx).2⟩
      | noUrls h0 => subst h0; cases hu
  | again _ _ ih =>
    refine ⟨fun a ha => ?_, fun e he u hu => ?_⟩
    · obtain ⟨u, h1, h2⟩ := ih.1 a ha
      exact ⟨u, h1, List.mem_append_right _ h2⟩
    · obtain ⟨o, h1, h2⟩ := ih.2 e he u hu
      exact ⟨o, List.mem_append_right _ h1, h2⟩

theorem pairOutcome_ok {H : Hash} {ex : List Validator} {st : Option State} {blk : Option Block}
    {x : State × Block} (h : pairOutcome H t ex st blk = .ok x) :
    st = some x.1 ∧ blk = some x.2 ∧ verifyCheckpointState H x.1 t ex = .ok () ∧
      anchorPairIsConsistent H x.1 x.2 = true := by
  unfold pairOutcome at h
  split at h
  next s b =>
    split at h
    · cases h
    next hv =>
      split at h
      next hc => cases h; exact ⟨rfl, rfl, hv, hc⟩
      · cases h
  · cases h

theorem anchorOutcome_ok {H : Hash} {ex : List Validator} {r : Option State × Option SignedBlock}
    {st : State} {sb : SignedBlock} (h : anchorOutcome H t ex r = .ok (st, sb)) :
    r = (some st, some sb) ∧ verifyCheckpointState H st t ex = .ok () ∧
      anchorPairIsConsistent H st sb.block = true := by
  obtain ⟨r1, r2⟩ := r
  unfold anchorOutcome at h
  simp only at h
  split at h
  · cases h
  next sb' e =>
    split at h
    next s b hp =>
      cases h
      obtain ⟨h1, h2, h3, h4⟩ := pairOutcome_ok hp
      cases h2
      exact ⟨by rw [h1], h3, h4⟩
    · cases h
    · cases h

/-- The store made from a consistent anchor over any tables. -/
theorem initOver_ok {H : Hash} (old : Db) {st : State} {sb : SignedBlock}
    (hc : anchorPairIsConsistent H st sb.block = true) :
    ∃ s, initStoreOver H old st (some sb.block.body) = .ok s ∧
      s.mem.db.head = sb.block.root H ∧ s.mem.db.safeTarget = sb.block.root H ∧
      s.mem.db.finalized = ⟨sb.block.root H, sb.block.slot⟩ ∧
      s.mem.db.justified = ⟨sb.block.root H, sb.block.slot⟩ ∧
      s.mem.db.states = old.states.insert (sb.block.root H) (withStateRoot st sb.block.stateRoot) ∧
      s.mem.db.headers = old.headers.insert (sb.block.root H) (sb.block.header H) ∧
      s.mem.db.bodies = old.bodies.insert (sb.block.root H) sb.block.body ∧
      s.mem.db.proofs = old.proofs ∧
      s.mem.db.blockRoots = old.blockRoots.insert sb.block.slot (sb.block.root H) ∧
      s.mem.db.diffs = old.diffs ∧
      s.mem.db.liveChain = old.liveChain.insert (sb.block.slot, sb.block.root H)
        sb.block.parentRoot ∧
      s.mem.db.time = 0 ∧ s.fc = ⟨[], []⟩ ∧ s.genesisTime = st.genesisTime ∧ s.mem.cache = [] := by
  obtain ⟨h1, h2⟩ := C54_pair H st sb.block hc
  have hz : st.latestBlockHeader.stateRoot = 0 ∨ st.latestBlockHeader.stateRoot =
      H.state { st with latestBlockHeader := { st.latestBlockHeader with stateRoot := 0 } } := by
    unfold anchorPairIsConsistent at hc
    simp only at hc
    split at hc
    · cases hc
    · split at hc
      · cases hc
      next h3 =>
        rw [not_and_or, Decidable.not_not, Decidable.not_not] at h3
        exact h3
  have hsr : H.state { st with latestBlockHeader := { st.latestBlockHeader with stateRoot := 0 } } =
      sb.block.stateRoot := h2.symm
  have hhd : ({ st.latestBlockHeader with stateRoot := sb.block.stateRoot } : Header) =
      sb.block.header H := h1.symm
  have hsl : st.latestBlockHeader.slot = sb.block.slot := (congrArg Header.slot hhd)
  have hpr : st.latestBlockHeader.parentRoot = sb.block.parentRoot := congrArg Header.parentRoot hhd
  unfold initStoreOver initOver
  simp only
  rw [if_neg (fun h => h hz)]
  have hr : H.header { st.latestBlockHeader with stateRoot := H.state { st with
      latestBlockHeader := { st.latestBlockHeader with stateRoot := 0 } } } = sb.block.root H := by
    rw [hsr, hhd, root_eq]
  refine ⟨_, rfl, hr, hr, ?_, ?_, ?_, ?_, ?_, rfl, ?_, rfl, ?_, rfl, rfl, rfl, rfl⟩
  · show Checkpoint.mk _ _ = _
    rw [hr, hsl]
  · show Checkpoint.mk _ _ = _
    rw [hr, hsl]
  · show AMap.insert _ _ _ = _
    rw [hr]
    unfold withStateRoot
    rw [hsr]
  · show AMap.insert _ _ _ = _
    rw [hr, hsr, hhd]
  · show AMap.insert _ _ _ = _
    rw [hr]
  · show AMap.insert _ _ _ = _
    rw [hr, hsl]
  · show AMap.insert _ _ _ = _
    rw [hr, hsl, hpr]

theorem checkpointStart_synced (H : Hash) (disk : Option Disk) :
    ∃ x, checkpointStart H disk t (genesisValidators entries) urls replies = .ok x ∧
      Synced H disk t entries urls replies x := by
  obtain ⟨hg, hr⟩ := C55_retry (fun n u => anchorOutcome H t (genesisValidators entries) (replies n u))
    urls
  unfold checkpointStart
  revert hg hr
  generalize withRetry (fun n u => anchorOutcome H t (genesisValidators entries) (replies n u)) urls
    (maxCheckpointAttempts - 1) [] = w
  obtain ⟨w1, w2⟩ := w
  intro hg hr
  simp only at hg hr ⊢
  obtain ⟨r1, r2⟩ := retried_ok hr
  cases w1 with
  | error e =>
    refine ⟨_, rfl, .failed e fun u hu => ?_⟩
    obtain ⟨o, h1, h2⟩ := r2 e rfl u hu
    obtain ⟨i, hi⟩ := List.mem_iff_getElem?.1 h1
    refine ⟨i, fun x hx => ?_⟩
    exact h2 x ((hg i u o hi).trans hx)
  | ok y =>
    obtain ⟨st, sb⟩ := y
    obtain ⟨u, hu, hm⟩ := r1 _ rfl
    obtain ⟨i, hi⟩ := List.mem_iff_getElem?.1 hm
    obtain ⟨e1, e2, e3⟩ := anchorOutcome_ok (hg i u _ hi).symm
    obtain ⟨k1, -, -, k2⟩ := (C54_accepts_iff H st t _).1 e2
    obtain ⟨k3, k4⟩ := C54_registry H st t entries e2
    obtain ⟨s, g0, g1, g2, g3, g4, g5, g6, g7, -⟩ := initOver_ok (H := H)
      ((disk.map Disk.db).getD emptyDb) e3
    simp only [e3, if_true, g0]
    refine ⟨_, rfl, .anchor hu e1 k1 k3 k4 k2 e3 g1 g2 g3 g4 ?_ ?_⟩
    · show s.mem.db.states.get? _ = _
      rw [g5, AMap.get?_insert, if_pos rfl]
    · intro hb
      unfold insertSigned insertSignedBlock writeSignedBlock getSignedBlock
      simp only [AMap.get?_insert, if_true]
      by_cases hbr : (sb.block.header H).bodyRoot = H.body []
      · have hbr' : H.body sb.block.body = H.body [] := hbr
        rw [if_pos hbr]
        simp only
        rw [← hb hbr']
        rfl
      · rw [if_neg hbr, if_pos hbr]
        simp only [AMap.get?_insert, if_true]
        rfl

/-- **C91.** With an empty directory and some URL, the node starts from an anchor one of the URLs
delivered, after verification, or gives up and writes nothing. -/
theorem C91_sync_fresh (H : Hash) (hu : urls ≠ []) :
    ∃ x, fetchInitialState H none t entries now urls replies = .ok x ∧
      Synced H none t entries urls replies x := by
  obtain ⟨x, h1, h2⟩ := checkpointStart_synced (t := t) (entries := entries) (urls := urls)
    (replies := replies) H none
  refine ⟨x, ?_, h2⟩
  unfold fetchInitialState fromDbState
  simp only
  rw [if_neg hu, h1]

/-- **C91.** The same for a node whose own directory is stale and that has some URL. -/
theorem C91_sync_stale (ho : ∀ l, (c.order l).Perm l)
    (W : World c.E t (genesisValidators entries) bs a0
      (Known c.E.H (State.fromGenesis c.E.H t (genesisValidators entries)) bs evs))
    (h : AReach c a0 body evs a) {hd : Header}
    (hh : a.store.mem.db.headers.get? a.store.mem.db.head = some hd)
    (hw : hd.slot + 450 < (now - t * 1000) / 4000) (hu : urls ≠ []) :
    ∃ x, fetchInitialState c.E.H (some (Store.disk a.store)) t entries now urls replies = .ok x ∧
      Synced c.E.H (some (Store.disk a.store)) t entries urls replies x := by
  obtain ⟨x, h1, h2⟩ := checkpointStart_synced (t := t) (entries := entries) (urls := urls)
    (replies := replies) c.E.H (some (Store.disk a.store))
  refine ⟨x, ?_, h2⟩
  obtain ⟨s', h', e1, e2, e3, e4⟩ := fromDb_own ho W h
  have e5 : s'.header s'.mem.db.head = some hd := by
    unfold Store.header
    rw [e2, hh]
  unfold fetchInitialState
  simp only [e1, e5]
  rw [if_neg, h1]
  unfold maxResumableAge
  intro hx
  rcases hx with hx | hx
  · omega
  · exact hu hx

/-! ## Non-vacuity -/

namespace Witness
open Verif.Witness Verif.Node.Witness

def wEntries : List (Nat × Nat) := [(1, 1), (2, 2), (3, 3)]

/-- The state after some blocks (oldest first). -/
def chainState : State → List Block → State
  | s, [] => s
  | s, b :: l => match importState wH s b with
    | .ok s => chainState s l
    | .error _ => s

/-- The network is on the chain 0, 3, 4. -/
def netAnchor : State := serveState (chainState wG [mkBlock 3 0 [], mkBlock 4 3 []])

def netReplies (_ _ : Nat) : Option State × Option SignedBlock :=
  (some netAnchor, some (sgn (mkBlock 4 3 [])))

/-- The node imported block 1. -/
def startEvs : List Event := [.block (sgn (mkBlock 1 0 [])), .tick 5000 true]

def startActor : Actor := match rrun startEvs with
  | .ok a => a
  | .error _ => ⟨openStore ⟨emptyDb, 0⟩, [], []⟩

theorem startActor_reach : AReach rCtx wG (some []) startEvs startActor := by
  apply areach_rrun
  unfold startActor
  cases e : rrun startEvs with
  | error x =>
    have : (rrun startEvs).isOk = true := by decide +kernel
    rw [e] at this; cases this
  | ok a => rfl

theorem startWorld : World rCtx.E 0 (genesisValidators wEntries) [] wG
    (Known rCtx.E.H (State.fromGenesis rCtx.E.H 0 (genesisValidators wEntries)) [] startEvs) :=
  rWorld (by decide +kernel) (by decide +kernel)

/-- `C91_resume` and `C91_sync_stale` apply: up to slot 451 the node resumes, after that it syncs. -/
example (now : Nat) (h : now / 4000 ≤ 451) : ∃ s', fetchInitialState wH
    (some (Store.disk startActor.store)) 0 wEntries now [7] netReplies =
      .ok (.ok s', some (Store.disk startActor.store)) := by
  obtain ⟨s', h1, -⟩ := C91_resume (now := now) (urls := [7]) (replies := netReplies)
    (fun l => List.Perm.refl l) startWorld startActor_reach
    (hd := (mkBlock 1 0 []).header wH) (by decide +kernel) (.inl (by
      show (now - 0 * 1000) / 4000 ≤ 1 + 450
      omega))
  exact ⟨s', h1⟩

example : ∃ x, fetchInitialState wH (some (Store.disk startActor.store)) 0 wEntries 1808000 [7]
    netReplies = .ok x ∧ Synced wH (some (Store.disk startActor.store)) 0 wEntries [7] netReplies x :=
  C91_sync_stale (fun l => List.Perm.refl l) startWorld startActor_reach
    (hd := (mkBlock 1 0 []).header wH) (by decide +kernel) (by decide +kernel) (by decide)

/-- The slot of the head after a start, if it succeeds. -/
def headSlot (d : Option Disk) (entries : List (Nat × Nat)) (now : Nat) (urls : List Nat) :
    Option Nat :=
  match fetchInitialState wH d 0 entries now urls netReplies with
  | .ok (.ok s, _) => (s.header s.mem.db.head).map (fun (h : Header) => h.slot)
  | _ => none

example : headSlot (some (Store.disk startActor.store)) wEntries 1807999 [7] = some 1 ∧
    headSlot (some (Store.disk startActor.store)) wEntries 1808000 [7] = some 4 ∧
    headSlot (some (Store.disk startActor.store)) wEntries 1808000 [] = some 1 ∧
    headSlot none wEntries 1808000 [7] = some 4 ∧ headSlot none wEntries 1808000 [] = some 0 := by
  decide +kernel

/-- `C91_foreign` applies: the configuration now lists other validators. -/
example : ∃ e, fetchInitialState wH (some (Store.disk startActor.store)) 0 [(1, 1), (2, 9), (3, 3)]
    5000 [7] netReplies = .ok (.error (.genesisMismatch e), some (Store.disk startActor.store)) := by
  have hx : (match (openStore (Store.disk startActor.store)).getState
      (Store.disk startActor.store).db.finalized.root with
    | .ok (some st, _) => decide (st.validators[1]? = some ⟨2, 2, 1⟩)
    | _ => false) = true := by decide +kernel
  split at hx
  next st s' e =>
    refine C91_foreign wH _ e fun hb => ?_
    have h1 := of_decide_eq_true hx
    have := (hb.2.2 1 _ _ h1 (show (genesisValidators [(1, 1), (2, 9), (3, 3)])[1]? = some ⟨2, 9, 1⟩
      from rfl)).2.2
    revert this
    decide
  · cases hx

end Witness
end Verif.Boot
