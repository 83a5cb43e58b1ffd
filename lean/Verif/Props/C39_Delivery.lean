import Verif.Lemmas.Delivery
import Verif.Props.C34_C35_C61_Checkpoints
import Verif.Props.C40_Discard
import Verif.Props.C60_BlockPanic
/-!
# C39: blocks delivered in any order are all imported
-/
namespace Verif.Node
open Verif Verif.Db Verif.Node.Witness Verif.Witness

section
variable {c : Ctx} {t : Nat} {vals : List Validator} {bs : List Block} {a0 : State}
  {body : Option (List AggAtt)} {evs evs' : List Event} {a a' : Actor}

theorem run_anchor_slot {H : Hash} {root : Root} {anchor : State} {ops : List Db.Op} {m : Mem}
    (hrun : Db.Run H a0 body root anchor ops m) : anchor.slot = a0.slot := by
  induction hrun with
  | init hi hs =>
    unfold initStore at hi
    dsimp only at hi
    split at hi
    · cases hi
    · cases hi
      injection hs with hs _
      rw [← (Prod.mk.inj hs).2]
  | step _ _ _ ih => exact ih

theorem AReach.run (h : AReach c a0 body evs a) (h' : ARun c a evs' a') :
    AReach c a0 body (evs' ++ evs) a' := by
  induction h' with
  | nil => exact h
  | step _ hs ih => exact ih.step hs

theorem AInv_init_keyed (h : Actor.init c a0 body = .ok a) : Keyed a.store.mem.db a.pending := by
  unfold Actor.init at h
  split at h
  · cases h
  · cases h; exact ⟨fun _ _ h => (by cases h), fun _ _ h => (by cases h)⟩

/-- As long as nobody builds on a proposal of the node before the node makes it, blocks wait only
for blocks without a state. -/
theorem areach_keyed (ho : ∀ l, (c.order l).Perm l)
    (W : World c.E t vals bs a0 (Known c.E.H (State.fromGenesis c.E.H t vals) bs evs))
    (hU : Unpredicted c.E.H (State.fromGenesis c.E.H t vals) bs evs)
    (h : AReach c a0 body evs a) : Keyed a.store.mem.db a.pending := by
  induction h with
  | init hi => exact AInv_init_keyed hi
  | @step evs a ev a' f h hs ih =>
    obtain ⟨rank, hR⟩ := W.tail.acyclic
    obtain ⟨root, anchor, ops, A, I⟩ := areach_ainv ho W.tail hR h eventK_known
    refine (ih W.tail fun sb e1 he => hU sb e1 (he.trans (List.suffix_cons _ _))).step ho W.tail I
      (fun sb he => ?_) hs
    subst he
    exact hU sb evs (List.suffix_refl _)

theorem World.drop {E : Env} {evs evs1 : List Event} :
    ∀ {evs2 : List Event},
    World E t vals bs a0 (Known E.H (State.fromGenesis E.H t vals) bs evs) → evs = evs2 ++ evs1 →
    World E t vals bs a0 (Known E.H (State.fromGenesis E.H t vals) bs evs1)
  | [], W, e => by rw [e] at W; exact W
  | ev :: evs2, W, e => by
    rw [e] at W
    exact World.drop (evs2 := evs2) W.tail rfl

/-- The events of a window, one after the other. -/
theorem deliv_run {K : Header → Prop} {rank : Root → Nat} {root : Root} {anchor : State}
    {ops : List Db.Op} {hs : AMap Root Header}
    (ho : ∀ l, (c.order l).Perm l) (W : World c.E t vals bs a0 K)
    (A : AnchorOk c.E.H (State.fromGenesis c.E.H t vals) K root anchor)
    (hR : Ranks c.E.H K rank) {T : SignedBlock → Prop} (hT : Tree c K T hs anchor)
    (I : AInv c.E t vals a0 body K rank root anchor ops a)
    (htime : ∀ sb, T sb → sb.block.slot * 5 ≤ a.store.mem.db.time + 1)
    (hbase : ∀ sb, T sb → hasState a.store.mem.db sb.block.parentRoot = true ∨
      ∃ p, T p ∧ p.block.root c.E.H = sb.block.parentRoot)
    (h : ARun c a evs' a') (hk : ∀ ev ∈ evs', EventK c.E.H K ev) (hre : Event.restart ∉ evs')
    (hcopy : ∀ e2 x e1 b, evs' = e2 ++ Event.block x :: e1 → ARun c a e1 b → ∀ sb, T sb →
      x.block.root c.E.H = sb.block.root c.E.H →
      x = sb ∨ hasState b.store.mem.db sb.block.parentRoot = true)
    (hkey : ∀ e2 e1 b, evs' = e2 ++ e1 → ARun c a e1 b → Keyed b.store.mem.db b.pending) :
    ∃ ops', AInv c.E t vals a0 body K rank root anchor ops' a' ∧
      (Fine c T hs root anchor ops' → Deliv c T (fun sb => T sb ∧ .block sb ∈ evs') a' []) := by
  induction h with
  | nil =>
    exact ⟨ops, I, fun _ => ⟨htime, hbase, fun _ h => (by cases h.2), fun _ _ _ h => (by cases h),
      hkey [] [] a rfl .nil⟩⟩
  | @step evs1 b ev b' f h1 hs ih =>
    obtain ⟨ops1, I1, J1⟩ := ih (fun e he => hk e (List.mem_cons_of_mem _ he))
      (fun he => hre (List.mem_cons_of_mem _ he))
      (fun e2 x e1 b he => hcopy (ev :: e2) x e1 b (by rw [he]; rfl))
      (fun e2 e1 b he => hkey (ev :: e2) e1 b (by rw [he]; rfl))
    obtain ⟨ops2, I2, -, J2⟩ := deliv_step ho W A hR hT (fun _ h => h.1) I1 J1
      (hk ev List.mem_cons_self) (fun e => hre (by rw [e]; exact List.mem_cons_self))
      (fun x hx => hcopy [] x evs1 b (by rw [hx]; rfl) h1)
      (fun a' f hs => hkey [] _ a' rfl (h1.step hs)) hs
    refine ⟨ops2, I2, fun F => ?_⟩
    have J := J2 F
    have cov : ∀ sb, (T sb ∧ Event.block sb ∈ ev :: evs1) →
        ((T sb ∧ Event.block sb ∈ evs1) ∨ T sb ∧ ev = .block sb) := by
      rintro sb ⟨k1, k2⟩
      rcases List.mem_cons.1 k2 with k2 | k2
      · exact .inr ⟨k1, k2.symm⟩
      · exact .inl ⟨k1, k2⟩
    exact ⟨J.time, J.base, fun y hy => J.at_ y (cov y hy), fun y hy => J.copy y (cov y hy),
      J.keyed⟩

/-- **C39.** From any reachable state, let the blocks of a tree `T` arrive in any order, mixed with
any other events except a restart. `T` hangs below an imported block or the blocks are the parents
of each other (`htree`); each is valid on its parent's state (`hvalid`); none is too far in the
future when the window starts or older than the anchor; no block of another branch gets finalized
at or above the slot of a block of `T` (`hfin`); no corrupted copy of a block of `T` (same block,
other proof) arrives before the block's parent is imported (`hcopy`); and whenever the node makes a
block of its own, no block it has received names that block as its parent (`hown`). Then at the end every block of
`T` is imported, no block waits for it, and it waits for nothing. -/
theorem C39_delivery (ho : ∀ l, (c.order l).Perm l)
    (W : World c.E t vals bs a0 (Known c.E.H (State.fromGenesis c.E.H t vals) bs (evs' ++ evs)))
    (h : AReach c a0 body evs a) (h' : ARun c a evs' a') (hre : Event.restart ∉ evs')
    (T : List SignedBlock) (hdel : ∀ sb ∈ T, Event.block sb ∈ evs')
    (htree : ∀ sb ∈ T, hasState a.store.mem.db sb.block.parentRoot = true ∨
      ∃ p ∈ T, p.block.root c.E.H = sb.block.parentRoot)
    (hvalid : ∀ sb ∈ T, ∀ p, Reads a'.store sb.block.parentRoot p → ValidOn c.E p sb)
    (htime : ∀ sb ∈ T, sb.block.slot * 5 ≤ a.store.mem.db.time + 1)
    (habove : ∀ sb ∈ T, a0.slot < sb.block.slot)
    (hfin : ∀ sb ∈ T, ∀ r st, Reads a'.store r st → st.latestFinalized.slot < sb.block.slot ∨
      HAnc a'.store.mem.db.headers (sb.block.root c.E.H) r)
    (hcopy : ∀ e2 x e1 b, evs' = e2 ++ Event.block x :: e1 → ARun c a e1 b → ∀ sb ∈ T,
      x.block.root c.E.H = sb.block.root c.E.H →
      x = sb ∨ hasState b.store.mem.db sb.block.parentRoot = true)
    (hown : Unpredicted c.E.H (State.fromGenesis c.E.H t vals) bs (evs' ++ evs))
    (hempty : ∀ sb ∈ T, c.E.H.body sb.block.body = c.E.H.body [] → sb.block.body = []) :
    ∀ sb ∈ T, hasState a'.store.mem.db (sb.block.root c.E.H) = true ∧
      a'.pending.get? (sb.block.root c.E.H) = none ∧
      ∀ k l, a'.pending.get? k = some l → sb.block.root c.E.H ∉ l := by
  obtain ⟨rank, hR⟩ := W.acyclic
  obtain ⟨root, anchor, ops, A, I⟩ := areach_ainv ho W hR h
    (fun e he => eventK_known e (List.mem_append_right _ he))
  have hslot := run_anchor_slot I.node.run
  have hKT : ∀ sb ∈ T, Known c.E.H (State.fromGenesis c.E.H t vals) bs (evs' ++ evs)
      (sb.block.header c.E.H) := fun sb hb =>
    .inr (.inr ⟨sb, .inl (List.mem_append_left _ (hdel sb hb)), rfl⟩)
  have hk' : ∀ ev ∈ evs', EventK c.E.H
      (Known c.E.H (State.fromGenesis c.E.H t vals) bs (evs' ++ evs)) ev :=
    fun e he => eventK_known e (List.mem_append_left _ he)
  have hhdr' : ∀ sb ∈ T, ∀ hd, a'.store.mem.db.headers.get? (sb.block.root c.E.H) = some hd →
      hd = sb.block.header c.E.H := by
    obtain ⟨root', anchor', ops', A', I'⟩ := areach_ainv ho W hR (h.run h') eventK_known
    intro sb hb hd hhd
    obtain ⟨k1, k2⟩ := I'.node.hdrK W _ _ hhd
    exact W.collisionFree _ _ k1 (hKT sb hb) k2
  have hT : Tree c (Known c.E.H (State.fromGenesis c.E.H t vals) bs (evs' ++ evs)) (· ∈ T)
      a'.store.mem.db.headers anchor :=
    ⟨hhdr', hKT, fun sb hb => by rw [hslot]; exact habove sb hb, hempty⟩
  obtain ⟨ops', I', J⟩ := deliv_run ho W A hR hT I htime htree h' hk' hre hcopy
    (fun e2 e1 b he hb => by
      have e : evs' ++ evs = e2 ++ (e1 ++ evs) := by rw [he, List.append_assoc]
      have W' := W.drop e
      exact areach_keyed ho W'
        (fun sb e0 h0 => hown sb e0 (by rw [e]; exact h0.trans (List.suffix_append _ _)))
        (h.run hb))
  have F : Fine c (· ∈ T) a'.store.mem.db.headers root anchor ops' :=
    ⟨fun r st e => (I'.node.tree.own r st e).2,
     fun sb hb r st e => hfin sb hb r st ((I'.node.reads W r st).2 e),
     fun sb hb p e => hvalid sb hb p ((I'.node.reads W _ p).2 e)⟩
  have J := J F
  have himp : ∀ n, ∀ sb ∈ T, rank (sb.block.root c.E.H) < n →
      hasState a'.store.mem.db sb.block.parentRoot = true ∧
      hasState a'.store.mem.db (sb.block.root c.E.H) = true := by
    intro n
    induction n with
    | zero => intro sb _ h; omega
    | succ n ih =>
      intro sb hb hlt
      have hp : hasState a'.store.mem.db sb.block.parentRoot = true := by
        rcases J.base sb hb with h | ⟨p, hp, ep⟩
        · exact h
        · rw [← ep]
          have : rank sb.block.parentRoot < rank (sb.block.root c.E.H) := hR _ (hKT sb hb)
          exact (ih p hp (by rw [ep]; omega)).2
      refine ⟨hp, ?_⟩
      rcases J.at_ sb ⟨hb, hdel sb hb⟩ with h | ⟨-, h⟩ | h
      · exact h
      · rcases h with ⟨l, hl, -⟩ | h
        · rw [J.keyed.state _ l hl] at hp; cases hp
        · cases h
      · cases h
  intro sb hb
  obtain ⟨p1, p2⟩ := himp _ sb hb (Nat.lt_succ_self _)
  refine ⟨p2, ?_, fun k l hl hm => ?_⟩
  · cases e : a'.pending.get? (sb.block.root c.E.H) with
    | none => rfl
    | some l => rw [J.keyed.state _ l e] at p2; cases p2
  · obtain ⟨-, hd, e1, e2⟩ := I'.maps.child k _ ⟨l, hl, hm⟩
    rw [hhdr' sb hb hd e1] at e2
    have e2 : sb.block.parentRoot = k := e2
    rw [← e2] at hl
    rw [J.keyed.state _ l hl] at p1; cases p1
end

/-! ## Instances -/

/-- Further events from `a`, newest first. -/
def crun (c : Ctx) (a : Actor) : List Event → P Actor
  | [] => .ok a
  | ev :: evs => match crun c a evs with
    | .error e => .error e
    | .ok a => match a.step c ev with
      | .error e => .error e
      | .ok (a, _) => .ok a

theorem crun_arun {c : Ctx} {a : Actor} : ∀ {evs : List Event} {a' : Actor}, crun c a evs = .ok a' →
    ARun c a evs a'
  | [], a', h => by cases h; exact .nil
  | ev :: evs, a', h => by
    unfold crun at h
    split at h
    · cases h
    next a1 e =>
      split at h
      · cases h
      next a2 f e2 => cases h; exact (crun_arun e).step e2

/-- A checkable form of `Unpredicted`. -/
def unpredB : List Event → Bool
  | [] => true
  | .own sb :: evs =>
    (knownList evs).all (fun h => decide (h.parentRoot ≠ sb.block.root wH)) && unpredB evs
  | _ :: evs => unpredB evs

theorem unpredB_tail {ev : Event} {evs : List Event} (h : unpredB (ev :: evs) = true) :
    unpredB evs = true := by
  cases ev with
  | own sb => exact (Bool.and_eq_true_iff.1 h).2
  | _ => exact h

theorem unpredB_sound : ∀ {evs : List Event}, unpredB evs = true → Unpredicted wH wG [] evs
  | [], _ => fun sb e1 h => by
    have := h.length_le; simp at this
  | ev :: evs, h => fun sb e1 hs hd hk => by
    rcases List.suffix_cons_iff.1 hs with e | hs
    · injection e with e1 e2
      subst e1; subst e2
      have h := (Bool.and_eq_true_iff.1 h).1
      exact of_decide_eq_true (List.all_eq_true.1 h hd (known_mem hk))
    · exact unpredB_sound (unpredB_tail h) sb e1 hs hd hk

/-- The parent chain from `r`, as a check for `HAnc`. -/
def hancB (hs : AMap Root Header) : Nat → Root → Root → Bool
  | 0, _, _ => false
  | n + 1, x, r =>
    match hs.get? r with
    | none => false
    | some hd => decide (x = r) || match hs.get? hd.parentRoot with
      | none => false
      | some pd => decide (pd.slot < hd.slot) && hancB hs n x hd.parentRoot

theorem hancB_sound {hs : AMap Root Header} {x : Root} : ∀ {n : Nat} {r : Root},
    hancB hs n x r = true → HAnc hs x r
  | n + 1, r, h => by
    unfold hancB at h
    split at h
    · cases h
    next hd e =>
      rcases Bool.or_eq_true_iff.1 h with h | h
      · have := of_decide_eq_true h; subst this; exact .self e
      · split at h
        · cases h
        next pd e2 =>
          rw [Bool.and_eq_true] at h
          exact .up e e2 (of_decide_eq_true h.1) (hancB_sound h.2)

/-- A node at genesis whose clock shows slot 8. -/
def clockActor : Actor := match Actor.init wCtx wG (some []) with
  | .error _ => waitActor
  | .ok a => match a.step wCtx (.tick 32000 false) with
    | .error _ => waitActor
    | .ok (a, _) => a

/-- The chain 1, 3, 4, 5, which finalizes slot 3. -/
def chainT : List SignedBlock :=
  [ sgn (mkBlock 1 0 []),
    sgn (mkBlock 3 1 [vote [true, true, true] 0 1]),
    sgn (mkBlock 4 3 [vote [true, true, true] 1 3]),
    sgn (mkBlock 5 4 [vote [true, true, true] 3 4]) ]

/-- Delivered from the tip down (newest first, so block 1 comes last), after the node has made
block 6 of its own on genesis. -/
def backEvs : List Event := chainT.map .block ++ [.own (sgn (mkBlock 6 0 []))]

def backActor : Actor := match crun wCtx clockActor backEvs with
  | .error _ => waitActor
  | .ok a => a

/-- A checkable form of the two conditions on states. -/
def stateOkB (E : Env) (T : List SignedBlock) (a : Actor) (r : Root) : Bool :=
  match getState a.store.mem r with
  | .ok (some st, _) => T.all (fun sb =>
      (decide (st.latestFinalized.slot < sb.block.slot) ||
        hancB a.store.mem.db.headers 10 (sb.block.root E.H) r) &&
      (decide (sb.block.parentRoot ≠ r) ||
        (decide (sb.block.slot - st.slot ≤ historicalRootsLimit) &&
          decide (sb.block.body.map AggAtt.data).Nodup &&
          decide (sb.block.body.length ≤ maxAttestationsData) &&
          E.verifyBlock st sb && (match importState E.H st sb.block with
            | .ok _ => true
            | .error _ => false))))
  | _ => true

theorem stateOkB_sound {E : Env} {T : List SignedBlock} {a : Actor} {r : Root} {st : State}
    (h : stateOkB E T a r = true) (hr : Reads a.store r st) : ∀ sb ∈ T,
    (st.latestFinalized.slot < sb.block.slot ∨
      HAnc a.store.mem.db.headers (sb.block.root E.H) r) ∧
    (sb.block.parentRoot = r → ValidOn E st sb) := by
  obtain ⟨m, hm⟩ := hr
  unfold stateOkB at h
  rw [hm] at h
  intro sb hb
  have h := List.all_eq_true.1 h sb hb
  rw [Bool.and_eq_true] at h
  refine ⟨(Bool.or_eq_true_iff.1 h.1).imp of_decide_eq_true hancB_sound, fun hp => ?_⟩
  rcases Bool.or_eq_true_iff.1 h.2 with h | h
  · exact absurd hp (of_decide_eq_true h)
  · simp only [Bool.and_eq_true] at h
    obtain ⟨⟨⟨⟨h1, h2⟩, h3⟩, h4⟩, h5⟩ := h
    refine ⟨of_decide_eq_true h1, by simpa using h2, of_decide_eq_true h3, h4, ?_⟩
    cases e : importState E.H st sb.block with
    | ok z => exact ⟨z, rfl⟩
    | error z => rw [e] at h5; cases h5

theorem back_runs : errOf (crun wCtx clockActor backEvs) = none ∧
    errOf (Actor.init wCtx wG (some [])) = none ∧
    (match Actor.init wCtx wG (some []) with
      | .error _ => some 0
      | .ok a => errOf (a.step wCtx (.tick 32000 false))) = none := by
  decide +kernel

theorem clock_reach : AReach wCtx wG (some []) [.tick 32000 false] clockActor := by
  obtain ⟨-, h1, h2⟩ := back_runs
  unfold clockActor
  cases e : Actor.init wCtx wG (some []) with
  | error z => rw [e] at h1; cases h1
  | ok a =>
    rw [e] at h2
    dsimp only at h2 ⊢
    cases e2 : a.step wCtx (.tick 32000 false) with
    | error z => rw [e2] at h2; cases h2
    | ok z => exact (AReach.init e).step e2

theorem back_run : ARun wCtx clockActor backEvs backActor := by
  have h := back_runs.1
  apply crun_arun
  unfold backActor
  cases e : crun wCtx clockActor backEvs with
  | error z => rw [e] at h; cases h
  | ok a => rfl

/-- Non-vacuity: the chain delivered from its tip down meets every hypothesis, although it finalizes
slot 3 while it is being imported. -/
theorem C39_instance : ∀ sb ∈ chainT, hasState backActor.store.mem.db (sb.block.root wH) = true ∧
    backActor.pending.get? (sb.block.root wH) = none ∧
    ∀ k l, backActor.pending.get? k = some l → sb.block.root wH ∉ l := by
  have W : World wCtx.E 0 wVals [] wG (Known wCtx.E.H (State.fromGenesis wCtx.E.H 0 wVals) []
      (backEvs ++ [.tick 32000 false])) :=
    world_of_list (by decide +kernel) (by decide +kernel)
  have hst : ∀ r st, Reads backActor.store r st → stateOkB wE chainT backActor r = true := by
    obtain ⟨rank, hR⟩ := W.acyclic
    intro r st hr
    have hkeys : r ∈ backActor.store.mem.db.states.keys ++ backActor.store.mem.db.diffs.keys := by
      obtain ⟨root, anchor, ops, A, I⟩ := areach_ainv (fun l => .refl l) W hR
        (clock_reach.run back_run) (fun e he => eventK_known e he)
      have := (I.node.hasState_iff W r).2 ⟨st, (I.node.reads W r st).1 hr⟩
      unfold hasState at this
      rw [List.mem_append, AMap.mem_keys_iff, AMap.mem_keys_iff]
      exact (Bool.or_eq_true_iff.1 this).imp Option.isSome_iff_exists.1 Option.isSome_iff_exists.1
    have hall : ∀ r ∈ backActor.store.mem.db.states.keys ++ backActor.store.mem.db.diffs.keys,
        stateOkB wE chainT backActor r = true := by decide +kernel
    exact hall r hkeys
  refine C39_delivery (c := wCtx) (fun l => .refl l) W clock_reach back_run
    (by simp [backEvs]) chainT (fun sb hb => List.mem_append_left _ (List.mem_map.2 ⟨sb, hb, rfl⟩)) (by decide +kernel)
    (fun sb hb p hp => (stateOkB_sound (hst _ p hp) hp sb hb).2 rfl) (by decide +kernel)
    (by decide +kernel) (fun sb hb r st hr => (stateOkB_sound (hst r st hr) hr sb hb).1) ?_
    (unpredB_sound (by decide +kernel)) (by decide +kernel)
  intro e2 x e1 _ hx _ sb hb he
  have hx : Event.block x ∈ backEvs := by rw [hx]; simp
  left
  have key : ∀ x ∈ chainT, ∀ sb ∈ chainT, x.block.root wH = sb.block.root wH → x = sb := by
    decide +kernel
  refine key x ?_ sb hb he
  rcases List.mem_append.1 hx with hx | hx
  · obtain ⟨y, hy, e⟩ := List.mem_map.1 hx
    cases e
    exact hy
  · simp at hx

example : backActor.store.mem.db.finalized.slot = 3 ∧ clockActor.pending = [] ∧
    (match crun wCtx clockActor (backEvs.drop 1) with
      | .error _ => []
      | .ok a => a.pending) = [(5, [6]), (4, [5]), (2, [4])] := by
  decide +kernel

/-- A block on a branch that loses: block 2 on block 1. -/
def sideBlock : SignedBlock := sgn (mkBlock 2 1 [])

/-- Without the condition on finalization the claim is false: block 2 is valid and its parent is
imported, and whether it gets imported depends on whether it arrives before or after block 5, which
finalizes slot 3 on the other branch. The two histories deliver the same blocks. -/
theorem C39_order_matters_across_finality : ∃ (early late : List Event),
    early.Perm late ∧
    (∃ a, ARun wCtx clockActor early a ∧ hasState a.store.mem.db (sideBlock.block.root wH) = true) ∧
    (∃ a, ARun wCtx clockActor late a ∧ hasState a.store.mem.db (sideBlock.block.root wH) = false) := by
  have e1 : (match crun wCtx clockActor (chainT.reverse.map .block ++ [.block sideBlock]) with
      | .error _ => false
      | .ok a => hasState a.store.mem.db (sideBlock.block.root wH)) = true := by decide +kernel
  have e2 : (match crun wCtx clockActor (.block sideBlock :: chainT.reverse.map .block) with
      | .error _ => true
      | .ok a => hasState a.store.mem.db (sideBlock.block.root wH)) = false := by decide +kernel
  refine ⟨chainT.reverse.map .block ++ [.block sideBlock],
    .block sideBlock :: chainT.reverse.map .block, List.perm_append_singleton _ _, ?_, ?_⟩
  · revert e1
    cases e : crun wCtx clockActor (chainT.reverse.map .block ++ [.block sideBlock]) with
    | error z => intro h; cases h
    | ok a => exact fun h => ⟨a, crun_arun e, h⟩
  · revert e2
    cases e : crun wCtx clockActor (.block sideBlock :: chainT.reverse.map .block) with
    | error z => intro h; cases h
    | ok a => exact fun h => ⟨a, crun_arun e, h⟩

/-- Block 4 arrives while its parent 3 is not there; then the node makes block 3 itself. Newest
first. -/
def preEvs : List Event :=
  [ .own (sgn (mkBlock 3 1 [])), .block (sgn (mkBlock 4 3 [])), .block (sgn (mkBlock 1 0 [])) ]

/-- Without the condition on the node's own blocks the claim is false: importing a block of the
node's own does not release the blocks that wait for it. Block 4 is valid and its parent is imported,
but it stays in the pending map until block 3 comes back from the network or a block on top of
block 4 arrives. -/
theorem C39_own_block_releases_nothing :
    (∃ a, ARun wCtx clockActor preEvs a ∧ hasState a.store.mem.db 4 = true ∧
      hasState a.store.mem.db 5 = false ∧ a.pending = [(4, [5])]) ∧
    (∃ a, ARun wCtx clockActor (.block (sgn (mkBlock 3 1 [])) :: preEvs) a ∧
      hasState a.store.mem.db 5 = true ∧ a.pending = []) := by
  have e1 : (match crun wCtx clockActor preEvs with
      | .error _ => none
      | .ok a => some (hasState a.store.mem.db 4, hasState a.store.mem.db 5, a.pending)) =
        some (true, false, [(4, [5])]) := by decide +kernel
  have e2 : (match crun wCtx clockActor (.block (sgn (mkBlock 3 1 [])) :: preEvs) with
      | .error _ => none
      | .ok a => some (hasState a.store.mem.db 5, a.pending)) = some (true, []) := by decide +kernel
  constructor
  · revert e1
    cases e : crun wCtx clockActor preEvs with
    | error z => intro h; cases h
    | ok a =>
      intro h
      have h := Prod.mk.inj (Option.some.inj h)
      have h2 := Prod.mk.inj h.2
      exact ⟨a, crun_arun e, h.1, h2.1, h2.2⟩
  · revert e2
    cases e : crun wCtx clockActor (.block (sgn (mkBlock 3 1 [])) :: preEvs) with
    | error z => intro h; cases h
    | ok a =>
      intro h
      have h := Prod.mk.inj (Option.some.inj h)
      exact ⟨a, crun_arun e, h.1, h.2⟩

/-! ## C71: a corrupted copy -/

/-- Cryptography that accepts exactly the proofs made by `sgn`. -/
def strictE : Env := { wE with verifyBlock := fun _ sb => decide (sb.proof = sb.block.slot) }

def strictCtx : Ctx := { E := strictE, order := fun l => l, reagg := fun _ _ => [] }

/-- Block 3 with a wrong proof. -/
def fakeBlock : SignedBlock := { block := (sgn (mkBlock 3 1 [])).block, proof := 99 }

/-- The good block 3, its corrupted copy, then its parent; newest first. -/
def fakeEvs : List Event :=
  [ .block (sgn (mkBlock 1 0 [])), .block fakeBlock, .block (sgn (mkBlock 3 1 [])) ]

/-- What the next two blocks of the chain change: the roots asked for, and whether block 3 and they are
imported. -/
def afterFake (evs : List Event) : Option (List Root × List Bool) :=
  match crun strictCtx clockActor evs with
  | .error _ => none
  | .ok a => match a.step strictCtx (.block (sgn (mkBlock 4 3 []))) with
    | .error _ => none
    | .ok (a, f) => match a.step strictCtx (.block (sgn (mkBlock 5 4 []))) with
      | .error _ => none
      | .ok (a, g) => some (f ++ g, [2, 4, 5, 6].map (hasState a.store.mem.db))

/-- **C71 is false.** Blocks 1 and 3 are delivered with valid proofs, and the clock and finalization
do not stand in the way, but a corrupted copy of block 3, received while block 3 waits for block 1,
replaces the good copy in the database. Block 3 is not imported when block 1 arrives; it is not
imported when its descendants arrive later, and the node does not ask its peers for it. Without the
copy the same blocks are all imported. -/
theorem C71_false :
    (∃ a, ARun strictCtx clockActor fakeEvs a ∧
      hasState a.store.mem.db (fakeBlock.block.root wH) = false ∧
      hasState a.store.mem.db fakeBlock.block.parentRoot = true ∧ a.pending = []) ∧
    afterFake fakeEvs = some ([], [true, false, false, false]) ∧
    afterFake (fakeEvs.eraseIdx 1) = some ([], [true, true, true, true]) := by
  refine ⟨?_, by decide +kernel, by decide +kernel⟩
  have e1 : (match crun strictCtx clockActor fakeEvs with
      | .error _ => none
      | .ok a => some (hasState a.store.mem.db (fakeBlock.block.root wH),
        hasState a.store.mem.db fakeBlock.block.parentRoot, a.pending)) =
        some (false, true, []) := by decide +kernel
  revert e1
  cases e : crun strictCtx clockActor fakeEvs with
  | error z => intro h; cases h
  | ok a =>
    intro h
    have h := Option.some.inj h
    have h2 := (Prod.mk.inj h).2
    exact ⟨a, crun_arun e, (Prod.mk.inj h).1, (Prod.mk.inj h2).1, (Prod.mk.inj h2).2⟩

end Verif.Node
