import Verif.Lemmas.Stored
import Verif.Model.Serve
import Verif.Props.C39_Delivery
import Verif.Props.C77_Requests
/-!
# C108: a node that hears of a block gets the whole branch

The node asks for the first missing ancestor (C77). If every such request is answered by a peer that has the
branch, the branch is imported, however many blocks are missing.
-/
namespace Verif.Node
open Verif Verif.Db Verif.Node.Witness Verif.Witness

section
variable {c : Ctx} {t : Nat} {vals : List Validator} {bs : List Block} {a0 : State}
  {body : Option (List AggAtt)} {evs evs' : List Event} {a a' : Actor}

/-- During the run every block that the node asks for is delivered, if the peer has it: for each root the
node requests while it handles a block, the peer's answer arrives before the end of the run. -/
def Answered (c : Ctx) (peer : Db) (a : Actor) (evs' : List Event) : Prop :=
  ∀ e2 x e1 b b' f, evs' = e2 ++ .block x :: e1 → ARun c a e1 b → b.step c (.block x) = .ok (b', f) →
    ∀ sb ∈ Serve.answerRoots c.E.H peer f, Event.block sb ∈ evs'

/-- Every block of the branch is imported in the end or was delivered. -/
theorem backfill_delivered {K : Header → Prop} {rank : Root → Nat} {root : Root} {anchor : State}
    {ops : List Db.Op} (ho : ∀ l, (c.order l).Perm l) (W : World c.E t vals bs a0 K)
    (A : AnchorOk c.E.H (State.fromGenesis c.E.H t vals) K root anchor)
    (hR : Ranks c.E.H K rank) (I : AInv c.E t vals a0 body K rank root anchor ops a)
    (h' : ARun c a evs' a') (hk' : ∀ ev ∈ evs', EventK c.E.H K ev) {T : List SignedBlock}
    (hT : Tree c K (· ∈ T) a'.store.mem.db.headers anchor)
    (hdel : ∀ sb ∈ T, Event.block sb ∈ evs' ∨ ∃ x ∈ T, x.block.parentRoot = sb.block.root c.E.H)
    (hask : ∀ e2 x e1 b b' f, evs' = e2 ++ .block x :: e1 → ARun c a e1 b →
      b.step c (.block x) = .ok (b', f) → x ∈ T →
      hasState b.store.mem.db (x.block.root c.E.H) = false →
      b.store.mem.db.headers.get? x.block.parentRoot = none → f = [x.block.parentRoot])
    (hans : ∀ e2 x e1 b b' f, evs' = e2 ++ .block x :: e1 → ARun c a e1 b →
      b.step c (.block x) = .ok (b', f) → ∀ sb ∈ T, sb.block.root c.E.H ∈ f → .block sb ∈ evs')
    (hcopy : ∀ e2 x e1 b, evs' = e2 ++ Event.block x :: e1 → ARun c a e1 b → ∀ sb ∈ T,
      x.block.root c.E.H = sb.block.root c.E.H →
      x = sb ∨ hasState b.store.mem.db sb.block.parentRoot = true)
    (hnew : ∀ sb ∈ T, a.store.mem.db.headers.get? (sb.block.root c.E.H) = none) :
    ∀ sb ∈ T, hasState a'.store.mem.db (sb.block.root c.E.H) = true ∨ Event.block sb ∈ evs' := by
  obtain ⟨ops', I', -⟩ := arun_ext ho W A hR I h' hk'
  obtain ⟨N, hN⟩ : ∃ N, ∀ sb ∈ T, rank (sb.block.root c.E.H) < N := by
    clear hT hdel hask hans hcopy hnew
    induction T with
    | nil => exact ⟨0, fun _ h => by cases h⟩
    | cons y l ih =>
      obtain ⟨N, hN⟩ := ih
      refine ⟨max N (rank (y.block.root c.E.H) + 1), fun sb hb => ?_⟩
      rcases List.mem_cons.1 hb with rfl | hb
      · omega
      · have := hN sb hb; omega
  have key : ∀ n, ∀ sb ∈ T, N < rank (sb.block.root c.E.H) + n →
      hasState a'.store.mem.db (sb.block.root c.E.H) = true ∨ Event.block sb ∈ evs' := by
    intro n
    induction n with
    | zero => intro sb hb h; have := hN sb hb; omega
    | succ n ih =>
      intro sb hb hlt
      rcases hdel sb hb with h | ⟨x, hx, hp⟩
      · exact .inr h
      have hrk : rank x.block.parentRoot < rank (x.block.root c.E.H) := hR _ (hT.known x hx)
      rw [hp] at hrk
      have hxr := root_ne W A hT hx
      -- a state of `x` at some point of the run gives one of `sb`
      have up : ∀ {opsb : List Db.Op} {b : Actor}, AInv c.E t vals a0 body K rank root anchor opsb b →
          hasState b.store.mem.db (x.block.root c.E.H) = true →
          hasState b.store.mem.db (sb.block.root c.E.H) = true := by
        intro opsb b Ib hs
        obtain ⟨hd, e, k⟩ := imported_header W Ib hs
        obtain ⟨k1, k2⟩ := Ib.node.hdrK W _ _ e
        have e2 : hd = x.block.header c.E.H := W.collisionFree _ _ k1 (hT.known x hx) k2
        rw [← hp]
        have := k hxr
        rw [e2] at this
        exact this
      rcases ih x hx (by omega) with h | h
      · exact .inl (up I' h)
      obtain ⟨e2, e1, he⟩ := List.mem_iff_append.1 h
      subst he
      obtain ⟨b, b', f, r1, r2, r3⟩ := ARun.split h'
      obtain ⟨opsb, Ib, -⟩ := arun_ext ho W A hR I r1
        (fun ev hev => hk' ev (List.mem_append_right _ (List.mem_cons_of_mem _ hev)))
      obtain ⟨ops2, I2, x2⟩ := arun_ext ho W A hR Ib (ARun.step .nil r2) (fun ev hev => by
        rw [List.mem_singleton] at hev; subst hev; exact hk' _ (List.mem_append_right _ List.mem_cons_self))
      obtain ⟨ops3, I3, x3⟩ := arun_ext ho W A hR I2 r3
        (fun ev hev => hk' ev (List.mem_append_left _ hev))
      cases hs : hasState b.store.mem.db (sb.block.root c.E.H) with
      | true => exact .inl (x3.hasState W I2.node I3.node (x2.hasState W Ib.node I2.node hs))
      | false =>
        have hxs : hasState b.store.mem.db (x.block.root c.E.H) = false := by
          cases hs' : hasState b.store.mem.db (x.block.root c.E.H) with
          | false => rfl
          | true => rw [up Ib hs'] at hs; cases hs
        right
        cases hh : b.store.mem.db.headers.get? (sb.block.root c.E.H) with
        | none =>
          have hf := hask e2 x e1 b b' f rfl r1 r2 hx hxs (by rw [hp]; exact hh)
          refine hans e2 x e1 b b' f rfl r1 r2 sb hb ?_
          rw [hf, hp]; exact List.mem_singleton.2 rfl
        | some hd =>
          obtain ⟨g2, y, g1, b1, k1, k2, k3, k4⟩ := stored_run ho W A hR I r1
            (fun ev hev => hk' ev (List.mem_append_right _ (List.mem_cons_of_mem _ hev))) hh hs
            (hnew sb hb)
          have hy : Event.block y ∈ e2 ++ Event.block x :: e1 := by rw [k1]; simp
          have e3 := header_eq W (hk' _ hy) (hT.known sb hb) k3
          have e4 : y.block.parentRoot = sb.block.parentRoot := congrArg Header.parentRoot e3
          rcases hcopy (e2 ++ .block x :: g2) y g1 b1 (by rw [k1]; simp) k2 sb hb k3 with rfl | h
          · exact hy
          · rw [← e4, k4] at h; cases h
  intro sb hb
  exact key (N + 1) sb hb (by omega)

/-- **C108.** From any reachable state, let a branch `T` be missing (`hnew`): it starts at an imported block
(`htree`) and every block of it has a child in it or is delivered (`hdel`; delivering the tip is enough). A peer
has the branch (`hpeer`) and the node's requests are answered before the end of the run (`hans`). Other events
happen in between, except a restart, and the other conditions are those of C39: the blocks are valid, not too
early, not older than the anchor, no other branch is finalized beyond them, no corrupted copy of a block
arrives before its parent is imported. Then the whole branch is imported. -/
theorem C108_backfill (ho : ∀ l, (c.order l).Perm l) (T : List SignedBlock)
    (W : World c.E t vals bs a0
      (Known c.E.H (State.fromGenesis c.E.H t vals) bs (T.map .block ++ (evs' ++ evs))))
    (h : AReach c a0 body evs a) (h' : ARun c a evs' a') (hre : Event.restart ∉ evs')
    (hnew : ∀ sb ∈ T, a.store.mem.db.headers.get? (sb.block.root c.E.H) = none)
    (htree : ∀ sb ∈ T, hasState a.store.mem.db sb.block.parentRoot = true ∨
      ∃ p ∈ T, p.block.root c.E.H = sb.block.parentRoot)
    (hdel : ∀ sb ∈ T, Event.block sb ∈ evs' ∨ ∃ x ∈ T, x.block.parentRoot = sb.block.root c.E.H)
    {peer : Db} (hpeer : ∀ sb ∈ T, getSignedBlock c.E.H peer (sb.block.root c.E.H) = some sb)
    (hans : Answered c peer a evs')
    (hvalid : ∀ sb ∈ T, ∀ p, Reads a'.store sb.block.parentRoot p → ValidOn c.E p sb)
    (htime : ∀ sb ∈ T, sb.block.slot * 5 ≤ a.store.mem.db.time + 1)
    (habove : ∀ sb ∈ T, a0.slot < sb.block.slot)
    (hfin : ∀ sb ∈ T, ∀ r st, Reads a'.store r st → st.latestFinalized.slot < sb.block.slot ∨
      HAnc a'.store.mem.db.headers (sb.block.root c.E.H) r)
    (hcopy : ∀ e2 x e1 b, evs' = e2 ++ Event.block x :: e1 → ARun c a e1 b → ∀ sb ∈ T,
      x.block.root c.E.H = sb.block.root c.E.H →
      x = sb ∨ hasState b.store.mem.db sb.block.parentRoot = true)
    (hown : Unpredicted c.E.H (State.fromGenesis c.E.H t vals) bs (evs' ++ evs))
    (hempty : ∀ sb ∈ T, c.E.H.body sb.block.body = c.E.H.body [] → sb.block.body = []) :
    ∀ sb ∈ T, hasState a'.store.mem.db (sb.block.root c.E.H) = true := by
  obtain ⟨rank, hR⟩ := W.acyclic
  have hkk : ∀ ev ∈ evs' ++ evs, EventK c.E.H
      (Known c.E.H (State.fromGenesis c.E.H t vals) bs (T.map .block ++ (evs' ++ evs))) ev :=
    fun e he => eventK_known e (List.mem_append_right _ he)
  obtain ⟨root, anchor, ops, A, I⟩ := areach_ainv ho W hR h
    (fun e he => hkk e (List.mem_append_right _ he))
  have hslot := run_anchor_slot I.node.run
  have hKT : ∀ sb ∈ T, Known c.E.H (State.fromGenesis c.E.H t vals) bs (T.map .block ++ (evs' ++ evs))
      (sb.block.header c.E.H) := fun sb hb =>
    .inr (.inr ⟨sb, .inl (List.mem_append_left _ (List.mem_map.2 ⟨sb, hb, rfl⟩)), rfl⟩)
  have hk' : ∀ ev ∈ evs', EventK c.E.H
      (Known c.E.H (State.fromGenesis c.E.H t vals) bs (T.map .block ++ (evs' ++ evs))) ev :=
    fun e he => hkk e (List.mem_append_left _ he)
  obtain ⟨opse, Ie, -⟩ := arun_ext ho W A hR I h' hk'
  have hT : Tree c (Known c.E.H (State.fromGenesis c.E.H t vals) bs (T.map .block ++ (evs' ++ evs)))
      (· ∈ T) a'.store.mem.db.headers anchor :=
    ⟨fun sb hb hd hhd => by
      obtain ⟨k1, k2⟩ := Ie.node.hdrK W _ _ hhd
      exact W.collisionFree _ _ k1 (hKT sb hb) k2,
     hKT, fun sb hb => by rw [hslot]; exact habove sb hb, hempty⟩
  have W0 : World c.E t vals bs a0
      (Known c.E.H (State.fromGenesis c.E.H t vals) bs (evs' ++ evs)) := W.drop rfl
  have hkey : ∀ e2 e1 b, evs' = e2 ++ e1 → ARun c a e1 b → Keyed b.store.mem.db b.pending :=
    fun e2 e1 b he hb => by
      have e : evs' ++ evs = e2 ++ (e1 ++ evs) := by rw [he, List.append_assoc]
      exact areach_keyed ho (W0.drop e)
        (fun sb e0 h0 => hown sb e0 (by rw [e]; exact h0.trans (List.suffix_append _ _)))
        (h.run hb)
  obtain ⟨ops', I', J⟩ := deliv_run ho W A hR hT I htime htree h' hk' hre hcopy hkey
  have F : Fine c (· ∈ T) a'.store.mem.db.headers root anchor ops' :=
    ⟨fun r st e => (I'.node.tree.own r st e).2,
     fun sb hb r st e => hfin sb hb r st ((I'.node.reads W r st).2 e),
     fun sb hb p e => hvalid sb hb p ((I'.node.reads W _ p).2 e)⟩
  have J := J F
  have hall := backfill_delivered ho W A hR I h' hk' hT hdel ?_ ?_ hcopy hnew
  · have himp : ∀ n, ∀ sb ∈ T, rank (sb.block.root c.E.H) < n →
        hasState a'.store.mem.db (sb.block.root c.E.H) = true := by
      intro n
      induction n with
      | zero => intro sb _ h; omega
      | succ n ih =>
        intro sb hb hlt
        have hp : hasState a'.store.mem.db sb.block.parentRoot = true := by
          rcases J.base sb hb with h | ⟨p, hp, ep⟩
          · exact h
          · rw [← ep]
            have : rank sb.block.parentRoot < rank (sb.block.root c.E.H) := hR _ (hKT sb hb)
            exact ih p hp (by rw [ep]; omega)
        rcases hall sb hb with h | h
        · exact h
        rcases J.at_ sb ⟨hb, h⟩ with h | ⟨-, h⟩ | h
        · exact h
        · rcases h with ⟨l, hl, -⟩ | h
          · rw [J.keyed.state _ l hl] at hp; cases hp
          · cases h
        · cases h
    exact fun sb hb => himp _ sb hb (Nat.lt_succ_self _)
  · intro e2 x e1 b b' f he r1 r2 hx hxs hh
    have e : evs' ++ evs = e2 ++ (.block x :: (e1 ++ evs)) := by rw [he]; simp
    obtain ⟨opsb, Ib, Jb⟩ := deliv_run ho W A hR hT I htime htree r1
      (fun ev hev => hk' ev (by rw [he]; exact List.mem_append_right _ (List.mem_cons_of_mem _ hev)))
      (fun hr => hre (by rw [he]; exact List.mem_append_right _ (List.mem_cons_of_mem _ hr)))
      (fun g2 y g1 b1 hg => hcopy (e2 ++ .block x :: g2) y g1 b1 (by rw [he, hg]; simp))
      (fun g2 g1 b1 hg => hkey (e2 ++ .block x :: g2) g1 b1 (by rw [he, hg]; simp))
    have r3 : ∃ ops3, AInv c.E t vals a0 body (Known c.E.H (State.fromGenesis c.E.H t vals) bs
          (T.map .block ++ (evs' ++ evs))) rank root anchor ops3 a' ∧
        Ext root anchor opsb b.store ops3 a'.store := by
      rw [he] at h'
      obtain ⟨d, d', g, s1, s2, s3⟩ := ARun.split h'
      have hdb : d = b := ARun.det s1 r1
      subst hdb
      obtain ⟨ops2, I2, x2⟩ := arun_ext ho W A hR Ib (ARun.step .nil s2) (fun ev hev => by
        rw [List.mem_singleton] at hev; subst hev
        exact hk' _ (by rw [he]; exact List.mem_append_right _ List.mem_cons_self))
      obtain ⟨ops3, I3, x3⟩ := arun_ext ho W A hR I2 s3
        (fun ev hev => hk' ev (by rw [he]; exact List.mem_append_left _ hev))
      exact ⟨ops3, I3, x2.trans x3⟩
    obtain ⟨ops3, I3, x3⟩ := r3
    have F3 : Fine c (· ∈ T) a'.store.mem.db.headers root anchor ops3 :=
      ⟨fun r st e => (I3.node.tree.own r st e).2,
       fun sb hb r st e => hfin sb hb r st ((I3.node.reads W r st).2 e),
       fun sb hb p e => hvalid sb hb p ((I3.node.reads W _ p).2 e)⟩
    have Fb := F3.mono x3.states
    refine ((C77_requests ho (W0.drop e) (h.run r1) r2).2 _).2 ⟨?_, (Jb Fb).time x hx, .here hh⟩
    exact fin_below W A Ib Fb hT hx (by rw [hxs]; simp)
  · intro e2 x e1 b b' f he r1 r2 sb hb hf
    refine hans e2 x e1 b b' f he r1 r2 sb ?_
    exact List.mem_filterMap.2 ⟨_, hf, hpeer sb hb⟩
end

/-! ## Instance -/

/-- The peer got the chain 1, 3, 4, 5 in order. -/
def peerDb : Db := match crun wCtx clockActor (chainT.reverse.map .block) with
  | .error _ => clockActor.store.mem.db
  | .ok a => a.store.mem.db

/-- What the node asks for, event by event (oldest first), and which of the blocks 1, 3, 4, 5 it has imported in
the end, when it hears of block 5 and only gets what it asked for. -/
def exchange : Nat → Actor → SignedBlock → List (List Root) × List Bool
  | 0, _, _ => ([], [])
  | n + 1, a, sb =>
    match a.step wCtx (.block sb) with
    | .error _ => ([], [])
    | .ok (a, f) =>
      match Serve.answerRoots wH peerDb f with
      | [] => ([f], chainT.map (fun x => hasState a.store.mem.db (x.block.root wH)))
      | y :: _ => let r := exchange n a y; (f :: r.1, r.2)

/-- Three requests, then everything is there. -/
example : exchange 9 clockActor (sgn (mkBlock 5 4 [vote [true, true, true] 3 4])) =
    ([[5], [4], [2], []], [true, true, true, true]) := by decide +kernel

theorem arun_crun {c : Ctx} {a : Actor} {evs : List Event} {a' : Actor} (h : ARun c a evs a') :
    crun c a evs = .ok a' := by
  induction h with
  | nil => rfl
  | step _ hs ih => unfold crun; rw [ih]; dsimp only; rw [hs]

/-- A checkable form of `Answered`, for the last part `evs` of the events `all`. -/
def answeredB (c : Ctx) (peer : Db) (a : Actor) (all : List Event) : List Event → Bool
  | [] => true
  | .block x :: e1 => answeredB c peer a all e1 && match crun c a e1 with
    | .error _ => true
    | .ok b => match b.step c (.block x) with
      | .error _ => true
      | .ok (_, f) => (Serve.answerRoots c.E.H peer f).all (fun sb => all.any (fun ev =>
          match ev with
          | .block y => decide (y = sb)
          | _ => false))
  | _ :: e1 => answeredB c peer a all e1

theorem answeredB_sound {c : Ctx} {peer : Db} {a : Actor} {all : List Event}
    (h : answeredB c peer a all all = true) : Answered c peer a all := by
  have key : ∀ (e2 : List Event) {x : SignedBlock} {e1 : List Event},
      answeredB c peer a all (e2 ++ .block x :: e1) = true →
      answeredB c peer a all (.block x :: e1) = true := by
    intro e2
    induction e2 with
    | nil => exact fun h => h
    | cons ev e2 ih =>
      intro x e1 h
      cases ev with
      | block y => exact ih (Bool.and_eq_true_iff.1 h).1
      | _ => exact ih h
  intro e2 x e1 b b' f he h1 h2 sb hsb
  have h3 : answeredB c peer a all (e2 ++ .block x :: e1) = true := by rw [← he]; exact h
  have h4 := (Bool.and_eq_true_iff.1 (key e2 h3)).2
  rw [arun_crun h1] at h4
  dsimp only at h4
  rw [h2] at h4
  obtain ⟨ev, k1, k2⟩ := List.any_eq_true.1 (List.all_eq_true.1 h4 sb hsb)
  split at k2
  next y => rw [← of_decide_eq_true k2]; exact k1
  · cases k2

/-- That exchange meets every hypothesis of `C108_backfill`, although it finalizes slot 3 on the way and the
node has made a block of its own before. -/
theorem C108_instance : ∀ sb ∈ chainT, hasState backActor.store.mem.db (sb.block.root wH) = true := by
  have W : World wCtx.E 0 wVals [] wG (Known wCtx.E.H (State.fromGenesis wCtx.E.H 0 wVals) []
      (chainT.map .block ++ (backEvs ++ [.tick 32000 false]))) :=
    world_of_list (by decide +kernel) (by decide +kernel)
  have hst : ∀ r st, Reads backActor.store r st → stateOkB wE chainT backActor r = true := by
    obtain ⟨rank, hR⟩ := W.acyclic
    intro r st hr
    have hkeys : r ∈ backActor.store.mem.db.states.keys ++ backActor.store.mem.db.diffs.keys := by
      obtain ⟨root, anchor, ops, A, I⟩ := areach_ainv (fun l => .refl l) W hR
        (clock_reach.run back_run) (fun e he => eventK_known e (List.mem_append_right _ he))
      have := (I.node.hasState_iff W r).2 ⟨st, (I.node.reads W r st).1 hr⟩
      unfold hasState at this
      rw [List.mem_append, AMap.mem_keys_iff, AMap.mem_keys_iff]
      exact (Bool.or_eq_true_iff.1 this).imp Option.isSome_iff_exists.1 Option.isSome_iff_exists.1
    have hall : ∀ r ∈ backActor.store.mem.db.states.keys ++ backActor.store.mem.db.diffs.keys,
        stateOkB wE chainT backActor r = true := by decide +kernel
    exact hall r hkeys
  have hpeer : ∀ sb ∈ chainT, getSignedBlock wH peerDb (sb.block.root wH) = some sb := by
    decide +kernel
  have htip : ∀ sb ∈ chainT, sb = sgn (mkBlock 5 4 [vote [true, true, true] 3 4]) ∨
      ∃ x ∈ chainT, x.block.parentRoot = sb.block.root wH := by decide +kernel
  have hans : Answered wCtx peerDb clockActor backEvs := answeredB_sound (by decide +kernel)
  refine C108_backfill (c := wCtx) (fun l => .refl l) chainT W clock_reach back_run
    (by simp [backEvs]) (by decide +kernel) (by decide +kernel)
    (fun sb hb => (htip sb hb).imp (fun e => by subst e; simp [backEvs, chainT]) id) hpeer hans
    (fun sb hb p hp => (stateOkB_sound (hst _ p hp) hp sb hb).2 rfl) (by decide +kernel)
    (by decide +kernel) (fun sb hb r st hr => (stateOkB_sound (hst r st hr) hr sb hb).1) ?_
    (unpredB_sound (by decide +kernel)) (by decide +kernel)
  intro e2 x e1 _ hx _ sb hb he
  have hx : Event.block x ∈ backEvs := by rw [hx]; simp
  left
  have key : ∀ x ∈ chainT, ∀ sb ∈ chainT, x.block.root wH = sb.block.root wH → x = sb := by
    decide +kernel
  refine key x ?_ sb hb he
  rcases List.mem_append.1 hx with hx | hx
  · obtain ⟨y, hy, e⟩ := List.mem_map.1 hx
    cases e
    exact hy
  · simp at hx

end Verif.Node
