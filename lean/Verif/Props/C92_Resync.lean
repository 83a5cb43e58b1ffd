import Verif.Props.C91_Startup
import Verif.Props.C53_Serve
import Verif.Props.C88_Duties
/-!
# C92, C93: starting again over an old database

C92: what a node that re-synced from a checkpoint serves by slot. C93: signing across starts.
-/
namespace Verif.Boot
open Verif Verif.Db Verif.Node Verif.Ckpt Verif.Sync

/-- A start over this database resumes the chain in it: no URL was given, or the head is at most 450
slots behind the wall clock. -/
def resumes (db : Db) (t now : Nat) (urls : List Nat) : Bool :=
  urls = [] ∨ (now - t * 1000) / 4000 ≤ slotOf db.headers db.head + 450

/-- The life of a node over one data directory: it is started (first on an empty directory), things
happen to it, it stops at any moment and is started again. `out` is everything it signed;
`resumed` says that every start after the first met the condition `resumes`. -/
inductive Life (c : VCtx) (t : Nat) (entries : List (Nat × Nat)) (gate : Bool) :
    (resumed : Bool) → VNode → List Signed → Prop
  | start {now : Nat} {urls : List Nat} {replies : Nat → Nat → Option State × Option SignedBlock}
      {s : Store} {d : Option Disk} :
      fetchInitialState c.H none t entries now urls replies = .ok (.ok s, d) →
      Life c t entries gate true ⟨⟨s, [], []⟩, Tracker.new gate⟩ []
  | event {b : Bool} {n n' : VNode} {out l : List Signed} {ev : VEvent} :
      Life c t entries gate b n out → n.step c ev = .ok (n', l) →
      Life c t entries gate b n' (out ++ l)
  | again {b : Bool} {n : VNode} {out : List Signed} {now : Nat} {urls : List Nat}
      {replies : Nat → Nat → Option State × Option SignedBlock} {s : Store} {d : Option Disk} :
      Life c t entries gate b n out →
      fetchInitialState c.H (some (Store.disk n.actor.store)) t entries now urls replies =
        .ok (.ok s, d) →
      Life c t entries gate (b && resumes n.actor.store.mem.db t now urls)
        ⟨⟨s, [], []⟩, Tracker.new gate⟩ out

/-! ## C93 -/

/-- A start that resumes is a restart and one read. -/
theorem resume_steps {c : VCtx} {t : Nat} {entries : List (Nat × Nat)} {n : VNode} {now : Nat}
    {urls : List Nat} {replies : Nat → Nat → Option State × Option SignedBlock} {s : Store}
    {d : Option Disk}
    (h : fetchInitialState c.H (some (Store.disk n.actor.store)) t entries now urls replies =
      .ok (.ok s, d)) (hr : resumes n.actor.store.mem.db t now urls = true) :
    ∃ n1, n.step c (.other .restart) = .ok (n1, []) ∧
      n1.step c (.other (.read n.actor.store.mem.db.finalized.root)) =
        .ok (⟨⟨s, [], []⟩, Tracker.new n.sync.gateDuties⟩, []) := by
  unfold fetchInitialState fromDbState at h
  simp only at h
  refine ⟨⟨⟨openStore (Store.disk n.actor.store), [], []⟩, Tracker.new n.sync.gateDuties⟩, rfl, ?_⟩
  have e0 : (Store.disk n.actor.store).db = n.actor.store.mem.db := rfl
  rw [e0] at h
  cases e : (openStore (Store.disk n.actor.store)).getState
      n.actor.store.mem.db.finalized.root with
  | error x => rw [e] at h; cases h
  | ok y =>
    obtain ⟨o, s1⟩ := y
    rw [e] at h
    cases o with
    | none => cases h
    | some st =>
      simp only at h
      have hdb : s1.mem.db = n.actor.store.mem.db := by
        unfold Store.getState at e
        split at e
        · cases e
        next x m em =>
          cases e
          exact (getState_db em).trans rfl
      have hs : s1 = s := by
        cases ev : verifyStateGenesis st t (genesisValidators entries) with
        | error x => simp only [ev] at h; cases h
        | ok u =>
          simp only [ev] at h
          cases eh : s1.header s1.mem.db.head with
          | none => simp only [eh] at h; cases h
          | some hd =>
            simp only [eh] at h
            have hg : (now - t * 1000) / 4000 - hd.slot ≤ maxResumableAge ∨ urls = [] := by
              unfold resumes at hr
              rcases of_decide_eq_true hr with h1 | h1
              · exact .inr h1
              · left
                rw [← hdb, slotOf_eq (show s1.mem.db.headers.get? s1.mem.db.head = some hd from eh)]
                  at h1
                unfold maxResumableAge
                omega
            rw [if_pos hg] at h
            cases h
            rfl
      subst hs
      have e2 : Node.step c.ctx.E (openStore (Store.disk n.actor.store))
          (.read n.actor.store.mem.db.finalized.root) = .ok s1 := by
        show (match (openStore (Store.disk n.actor.store)).getState
            n.actor.store.mem.db.finalized.root with
          | .error e => .error e
          | .ok (_, s) => .ok s : P Store) = _
        rw [e]
      show (match (match Node.step c.ctx.E (openStore (Store.disk n.actor.store))
            (.read n.actor.store.mem.db.finalized.root) with
          | .error e => .error e
          | .ok s => .ok ({ store := s, pending := [], parents := [] }, []) : P (Actor × List Root)) with
        | .error e => .error e
        | .ok (a, _) => .ok (⟨a, Tracker.new n.sync.gateDuties⟩, []) : P (VNode × List Signed)) = _
      rw [e2]

theorem life_vrun {c : VCtx} {t : Nat} {entries : List (Nat × Nat)} {gate b : Bool} {n : VNode}
    {out : List Signed} (h : Life c t entries gate b n out) : b = true →
    n.sync.gateDuties = gate ∧ ∃ n0 evs, VRun c n0 evs n out := by
  induction h with
  | start h => exact fun _ => ⟨rfl, _, [], .nil⟩
  | event h hs ih =>
    intro hb
    obtain ⟨h1, n0, evs, h2⟩ := ih hb
    exact ⟨(C88_flag (.step .nil hs)).trans h1, n0, _, .step h2 hs⟩
  | again h hf ih =>
    intro hb
    rw [Bool.and_eq_true] at hb
    obtain ⟨h1, n0, evs, h2⟩ := ih hb.1
    obtain ⟨n1, e1, e2⟩ := resume_steps hf hb.2
    rw [h1] at e2
    have := VRun.step (VRun.step h2 e1) e2
    simp only [List.append_nil] at this
    exact ⟨rfl, n0, _, this⟩

/-- **C93 (partial).** A node whose starts all resumed (the first one may be from genesis or from a
checkpoint) never signs two votes for one slot or two blocks for one slot with one key, however often
and whenever it is stopped and started. Missing: starts that sync from a checkpoint over an old
database, see `C93_false`. -/
theorem C93_partial {c : VCtx} (hk : c.ids.Nodup) {t : Nat} {entries : List (Nat × Nat)} {gate : Bool}
    {n : VNode} {out : List Signed} (h : Life c t entries gate true n out) :
    out.Pairwise (fun x y => ¬ Conflict x y) := by
  obtain ⟨-, n0, evs, hr⟩ := life_vrun h rfl
  exact C63_no_double_signing hk hr

/-! ## C92 -/

/-- A history of storage calls over the tables `old`, from an anchor whose root is `root`. Blocks do
not collide with stored headers, and heads are stored descendants of the anchor. -/
inductive OverRun (H : Hash) (old : Db) (anchor : State) (body : Option (List AggAtt)) (root : Root) :
    Mem → Prop
  | init {m : Mem} : initOver H old anchor body = .ok m → m.db.head = root →
      OverRun H old anchor body root m
  | step {m m' : Mem} {op : Op} : OverRun H old anchor body root m →
      (match op with
        | .insertPending sb | .insertSigned sb => ∀ hd, m.db.headers.get? (sb.block.root H) = some hd →
            hd = sb.block.header H
        | .updateCheckpoints head _ _ | .checkpointBatch head _ _ => HAnc m.db.headers root head
        | _ => True) →
      Db.step H m op = .ok m' → OverRun H old anchor body root m'

/-- The rows of an index from a slot on. -/
def above (a : Nat) (idx : AMap Nat Root) : AMap Nat Root := idx.filter (fun p => a ≤ p.1)

theorem get?_above (a : Nat) (idx : AMap Nat Root) (n : Nat) :
    (above a idx).get? n = if a ≤ n then idx.get? n else none := by
  unfold above
  induction idx with
  | nil => simp [AMap.get?_nil]
  | cons p l ih =>
    obtain ⟨k, v⟩ := p
    rw [List.filter_cons]
    by_cases hk : a ≤ k
    · rw [if_pos (by simpa using hk), AMap.get?_cons, AMap.get?_cons, ih]
      by_cases e : k = n
      · rw [if_pos e, if_pos e, if_pos (by omega)]
      · rw [if_neg e, if_neg e]
    · rw [if_neg (by simpa using hk), AMap.get?_cons, ih]
      by_cases e : k = n
      · rw [if_neg (by omega), if_neg (by omega)]
      · rw [if_neg e]

theorem foldl_congr (dels : List Nat) (ents : List (Nat × Root)) (m m' : AMap Nat Root) (n : Nat)
    (h : m.get? n = m'.get? n) :
    (ents.foldl (fun m e => m.insert e.1 e.2) (dels.foldl (fun m k => m.erase k) m)).get? n =
      (ents.foldl (fun m e => m.insert e.1 e.2) (dels.foldl (fun m k => m.erase k) m')).get? n := by
  have h0 : (dels.foldl (fun m k => m.erase k) m).get? n =
      (dels.foldl (fun m k => m.erase k) m').get? n := by
    rw [get?_foldl_erase, get?_foldl_erase, h]
  revert h0
  generalize dels.foldl (fun m k => m.erase k) m = x
  generalize dels.foldl (fun m k => m.erase k) m' = y
  intro h0
  induction ents generalizing x y with
  | nil => exact h0
  | cons e es ih =>
    simp only [List.foldl_cons]
    apply ih
    rw [AMap.get?_insert, AMap.get?_insert, h0]

/-- What holds all along. -/
structure OverInv (old : Db) (root : Root) (a : Nat) (m : Mem) : Prop where
  slot : slotOf m.db.headers root = a
  head : HAnc m.db.headers root m.db.head
  low : ∀ n, n < a → m.db.blockRoots.get? n = old.blockRoots.get? n
  idx : Indexed m.db.headers (above a m.db.blockRoots) root m.db.head

theorem OverInv.keep {old : Db} {root : Root} {a : Nat} {m m' : Mem} (I : OverInv old root a m)
    (hm : ∀ r h, m.db.headers.get? r = some h → m'.db.headers.get? r = some h)
    (e1 : m'.db.head = m.db.head) (e2 : m'.db.blockRoots = m.db.blockRoots) :
    OverInv old root a m' := by
  obtain ⟨hd, ehd⟩ := I.head.left
  refine ⟨(slotOf_mono hm ehd).trans I.slot, by rw [e1]; exact I.head.mono hm, ?_, ?_⟩
  · rw [e2]; exact I.low
  · rw [e1, e2]; exact indexed_mono hm I.head I.idx

theorem OverInv.update {old : Db} {root : Root} {a : Nat} {m : Mem} (I : OverInv old root a m)
    {h : Root} {j f : Option Checkpoint} {db' db2 : Db} (ha : HAnc m.db.headers root h)
    (e : updateCheckpoints m.db h j f = .ok db') (h1 : db2.headers = db'.headers)
    (h2 : db2.head = db'.head) (h3 : db2.blockRoots = db'.blockRoots) (ca : List (Root × State)) :
    OverInv old root a { db := db2, cache := ca } := by
  obtain ⟨g1, -, -, -, -, g6, -⟩ := updateCheckpoints_frame e
  obtain ⟨dels, ents, c, ec, L⟩ := changes_ok I.head ha
  have key := indexed_update I.idx L
  have hb : db'.blockRoots = ents.foldl (fun m e => m.insert e.1 e.2)
      (dels.foldl (fun m k => m.erase k) m.db.blockRoots) := by
    unfold updateCheckpoints at e
    rw [ec] at e
    simp only at e
    split at e
    · split at e
      · cases e; rfl
      · cases e; rfl
    · cases e; rfl
  have hca : a ≤ slotOf m.db.headers c := by
    rw [← I.slot]; exact L.aOld.slot_le
  refine ⟨?_, ?_, ?_, ?_⟩
  · simp only [h1, g1]; exact I.slot
  · simp only [h1, g1, h2, g6]; exact ha
  · intro n hn
    simp only [h3, hb]
    rw [get?_foldl_insert_not_mem, get?_foldl_erase, if_neg, I.low n hn]
    · intro hd
      obtain ⟨x, -, k2, -, k4⟩ := (L.dels n).1 hd
      have := k2.slot_le
      omega
    · intro r hr
      obtain ⟨-, k2, -, k4⟩ := (L.ents n r).1 hr
      have := k2.slot_le
      omega
  · simp only [h1, g1, h2, g6, h3, hb]
    intro n r
    rw [← key n r, get?_above]
    by_cases hn : a ≤ n
    · rw [if_pos hn]
      rw [foldl_congr dels ents m.db.blockRoots (above a m.db.blockRoots) n
        (by rw [get?_above, if_pos hn])]
    · rw [if_neg hn, key n r]
      constructor
      · intro e; cases e
      · rintro ⟨⟨k1, -⟩, k3⟩
        have := k1.slot_le
        rw [I.slot] at this
        omega

theorem overInv_init {old : Db} {root : Root} {hdr : Header} {m : Mem}
    (hh : m.db.headers = old.headers.insert root hdr)
    (hb : m.db.blockRoots = old.blockRoots.insert hdr.slot root) (hd : m.db.head = root)
    (ho : ∀ n, hdr.slot < n → old.blockRoots.get? n = none) : OverInv old root hdr.slot m := by
  have e : m.db.headers.get? root = some hdr := by rw [hh, AMap.get?_insert, if_pos rfl]
  refine ⟨slotOf_eq e, by rw [hd]; exact HAnc.self e, fun n hn => ?_, fun n r => ?_⟩
  · rw [hb, AMap.get?_insert, if_neg (by omega)]
  · rw [get?_above, hb, AMap.get?_insert, hd]
    constructor
    · intro h
      split at h
      next hle =>
        split at h
        next heq =>
          cases h
          exact ⟨⟨HAnc.self e, HAnc.self e⟩, (slotOf_eq e).trans heq⟩
        next hne => rw [ho n (by omega)] at h; cases h
      · cases h
    · rintro ⟨⟨h1, h2⟩, h3⟩
      have hr := h2.antisymm h1
      have h4 := h3.symm.trans ((congrArg (slotOf _) hr).trans (slotOf_eq e))
      rw [if_pos (Nat.le_of_eq h4.symm), if_pos h4.symm]
      exact congrArg some hr.symm

theorem overRun_inv {H : Hash} {old : Db} {anchor : State} {body : Option (List AggAtt)} {root : Root}
    {m : Mem} (h : OverRun H old anchor body root m)
    (ho : ∀ n, anchor.latestBlockHeader.slot < n → old.blockRoots.get? n = none) :
    OverInv old root anchor.latestBlockHeader.slot m := by
  induction h with
  | init h hr =>
    unfold initOver at h
    simp only at h
    split at h
    · cases h
    · cases h
      simp only at hr
      exact overInv_init (hdr := { anchor.latestBlockHeader with
          stateRoot := H.state { anchor with
            latestBlockHeader := { anchor.latestBlockHeader with stateRoot := 0 } } })
        (by rw [← hr]) (by rw [← hr]) hr ho
  | @step m m' op _ ha hs ih =>
    have ins : ∀ sb : SignedBlock, (∀ hd, m.db.headers.get? (sb.block.root H) = some hd →
        hd = sb.block.header H) → ∀ r h, m.db.headers.get? r = some h →
        (m.db.headers.insert (sb.block.root H) (sb.block.header H)).get? r = some h := by
      intro sb hsb r h hr
      rw [AMap.get?_insert]
      split
      next e => rw [← hsb h (by rw [e]; exact hr)]
      · exact hr
    cases op with
    | insertPending sb => cases hs; exact ih.keep (ins sb ha) rfl rfl
    | insertSigned sb => cases hs; exact ih.keep (ins sb ha) rfl rfl
    | insertState r st =>
      obtain ⟨h1, -, -, h4, h5, -⟩ := insertState_db (show insertState H m r st = .ok m' from hs)
      exact ih.keep (by rw [h1]; exact fun _ _ h => h) h4 h5
    | readState r =>
      have hs : (match getState m r with | .error e => .error e | .ok (_, m) => .ok m : P Mem)
        = .ok m' := hs
      split at hs
      · cases hs
      next x m1 e =>
        cases hs
        have := getState_db e
        exact ih.keep (by rw [this]; exact fun _ _ h => h) (by rw [this]) (by rw [this])
    | checkpointBatch h j f =>
      have hs : (match checkpointBatch m.db h j f with
        | .error e => .error e | .ok db => .ok { m with db := db } : P Mem) = .ok m' := hs
      split at hs
      · cases hs
      next db2 e =>
        cases hs
        obtain ⟨db', e', rfl⟩ := checkpointBatch_of e
        exact ih.update (db2 := { db' with liveChain := m.db.liveChain }) ha e' rfl rfl rfl _
    | updateCheckpoints h j f =>
      have hs : (match updateCheckpoints m.db h j f with
        | .error e => .error e | .ok db => .ok { m with db := db } : P Mem) = .ok m' := hs
      split at hs
      · cases hs
      next db' e =>
        cases hs
        exact ih.update ha e rfl rfl rfl _
    | setSafeTarget r => cases hs; exact ih.keep (fun _ _ h => h) rfl rfl
    | setTime t => cases hs; exact ih.keep (fun _ _ h => h) rfl rfl
    | restart => cases hs; exact ih.keep (fun _ _ h => h) rfl rfl
    | pruneOldData =>
      have hs : (match pruneOldData m.db with
        | .error e => .error e | .ok db => .ok { m with db := db } : P Mem) = .ok m' := hs
      split at hs
      · cases hs
      next db' e =>
        cases hs
        obtain ⟨h0, -, -, -, h5, h6, -⟩ := pruneOldData_frame e
        exact ih.keep (by rw [h0]; exact fun _ _ h => h) h5 h6

/-- **C92 (partial).** After a checkpoint start over tables `old` that list no block above the anchor
slot, and after any storage calls, a slot from the anchor's on maps exactly to the block of the chain
from the anchor to the head. Below the anchor every slot maps to what it mapped to before; missing is
that those rows belong to the anchor's chain, see `C92_false`. -/
theorem C92_partial {H : Hash} {old : Db} {anchor : State} {body : Option (List AggAtt)} {root : Root}
    {m : Mem} (h : OverRun H old anchor body root m)
    (ho : ∀ n, anchor.latestBlockHeader.slot < n → old.blockRoots.get? n = none) :
    (∀ n r, anchor.latestBlockHeader.slot ≤ n → (m.db.blockRoots.get? n = some r ↔
      HAnc m.db.headers root r ∧ HAnc m.db.headers r m.db.head ∧
        ∃ hd, m.db.headers.get? r = some hd ∧ hd.slot = n)) ∧
    (∀ n, n < anchor.latestBlockHeader.slot →
      m.db.blockRoots.get? n = old.blockRoots.get? n) := by
  have I := overRun_inv h ho
  refine ⟨fun n r hn => ?_, I.low⟩
  have := I.idx n r
  rw [get?_above, if_pos hn] at this
  rw [this]
  constructor
  · rintro ⟨⟨h1, h2⟩, h3⟩
    obtain ⟨hd, e⟩ := h1.right
    exact ⟨h1, h2, hd, e, by rw [← slotOf_eq e]; exact h3⟩
  · rintro ⟨h1, h2, hd, e, h3⟩
    exact ⟨⟨h1, h2⟩, by rw [slotOf_eq e]; exact h3⟩

namespace Witness
open Verif.Witness Verif.Node.Witness

/-- A start on a directory (`dNode` if it fails). -/
def boot (d : Option Disk) (now : Nat) (urls : List Nat) : VNode :=
  match fetchInitialState wH d 0 wEntries now urls netReplies with
  | .ok (.ok s, _) => ⟨⟨s, [], []⟩, Tracker.new true⟩
  | _ => dNode

def boots (d : Option Disk) (now : Nat) (urls : List Nat) : Bool :=
  match fetchInitialState wH d 0 wEntries now urls netReplies with
  | .ok (.ok _, _) => true
  | _ => false

theorem boot_eq {d : Option Disk} {now : Nat} {urls : List Nat} (h : boots d now urls = true) :
    ∃ s d', fetchInitialState wH d 0 wEntries now urls netReplies = .ok (.ok s, d') ∧
      boot d now urls = ⟨⟨s, [], []⟩, Tracker.new true⟩ := by
  unfold boots at h
  unfold boot
  split at h
  next s d' e => exact ⟨s, d', e, rfl⟩
  · cases h

/-- Events in order; what was signed. -/
def vgo (n : VNode) : List VEvent → P (VNode × List Signed)
  | [] => .ok (n, [])
  | ev :: evs => match n.step dCtx ev with
    | .error e => .error e
    | .ok (n, l) => match vgo n evs with
      | .error e => .error e
      | .ok (n, out) => .ok (n, l ++ out)

def vnode (n : VNode) (evs : List VEvent) : VNode := match vgo n evs with
  | .ok (n, _) => n
  | .error _ => n

def vout (n : VNode) (evs : List VEvent) : List Signed := match vgo n evs with
  | .ok (_, l) => l
  | .error _ => []

theorem vgo_eq {n : VNode} {evs : List VEvent} (h : (vgo n evs).isOk = true) :
    vgo n evs = .ok (vnode n evs, vout n evs) := by
  unfold vnode vout
  cases e : vgo n evs with
  | error x => rw [e] at h; cases h
  | ok x => rfl

theorem life_vgo {b : Bool} {evs : List VEvent} : ∀ {n : VNode} {out : List Signed} {m : VNode}
    {l : List Signed}, Life dCtx 0 wEntries true b n out → vgo n evs = .ok (m, l) →
    Life dCtx 0 wEntries true b m (out ++ l) := by
  induction evs with
  | nil => intro n out m l h e; cases e; simpa using h
  | cons ev evs ih =>
    intro n out m l h e
    unfold vgo at e
    split at e
    · cases e
    next n1 l1 e1 =>
      split at e
      · cases e
      next n2 l2 e2 =>
        cases e
        rw [← List.append_assoc]
        exact ih (.event h e1) e2

/-- The node starts from genesis, imports block 1, is stuck there for half an hour and votes in slot
500. -/
def n1 : VNode := boot none 0 []
def evs1 : List VEvent := [.timer 5000 false, .other (.block (sgn (mkBlock 1 0 []))),
  .timer 2000900 true]
def n2 : VNode := vnode n1 evs1
def out2 : List Signed := vout n1 evs1

theorem life2 : Life dCtx 0 wEntries true true n2 out2 := by
  obtain ⟨s, d, e1, e2⟩ := boot_eq (d := none) (now := 0) (urls := []) (by decide +kernel)
  have h0 : Life dCtx 0 wEntries true true n1 [] := by
    unfold n1
    rw [e2]
    exact .start e1
  have h1 := life_vgo h0 (vgo_eq (n := n1) (evs := evs1) (by decide +kernel))
  rwa [List.nil_append] at h1

/-- It is restarted within the slot with a checkpoint URL: the anchor is block 4 of another chain. -/
def n3 : VNode := boot (some (Store.disk n2.actor.store)) 2001000 [7]

/-- And it votes again. -/
def n4 : VNode := vnode n3 [.timer 2001200 true]
def out4 : List Signed := vout n3 [.timer 2001200 true]

theorem life3 : Life dCtx 0 wEntries true false n3 out2 := by
  obtain ⟨s, d, e1, e2⟩ := boot_eq (d := some (Store.disk n2.actor.store)) (now := 2001000)
    (urls := [7]) (by decide +kernel)
  unfold n3
  rw [e2]
  have := Life.again life2 e1
  rwa [show (true && resumes n2.actor.store.mem.db 0 2001000 [7]) = false by decide +kernel] at this

theorem life4 : Life dCtx 0 wEntries true false n4 (out2 ++ out4) :=
  life_vgo life3 (vgo_eq (by decide +kernel))

/-- What was signed: validators 0 and 2 vote twice for slot 500, first for the head at slot 1, then
for the head at slot 4. -/
example : (out2 ++ out4).map brief = [(0, 1, 0, 0, true), (2, 1, 0, 0, true),
    (0, 500, 1, 0, true), (2, 500, 1, 0, true),
    (0, 500, 4, 4, true), (2, 500, 4, 4, true)] := by
  decide +kernel

/-- `C93_partial` applies: the node is stopped after its vote in slot 500, resumes and votes in slot
501. -/
def n5 : VNode := boot (some (Store.disk n2.actor.store)) 2001000 []

def initMem : Mem := match initOver wH n2.actor.store.mem.db netAnchor (some []) with
  | .ok m => m
  | .error _ => n2.actor.store.mem

def netHeader : Header := (mkBlock 4 3 []).header wH

/-- The result of a step that does not fail. -/
def stepped (m : Mem) (op : Op) : Mem := match Db.step wH m op with
  | .ok m => m
  | .error _ => m

theorem step_ok {m : Mem} {op : Op} (h : (Db.step wH m op).isOk = true) :
    Db.step wH m op = .ok (stepped m op) := by
  unfold stepped
  cases e : Db.step wH m op with
  | error x => rw [e] at h; cases h
  | ok x => rfl

/-- `C92_partial` applies to this start followed by an import of block 5 on top of the anchor. -/
example : ∃ m, OverRun wH n2.actor.store.mem.db netAnchor (some []) 5 m ∧ m.db.head = 6 ∧
    m.db.blockRoots.get? 5 = some 6 ∧ m.db.blockRoots.get? 4 = some 5 ∧
    m.db.blockRoots.get? 3 = none ∧ m.db.blockRoots.get? 1 = some 2 := by
  cases e1 : initOver wH n2.actor.store.mem.db netAnchor (some []) with
  | error x =>
    have : (initOver wH n2.actor.store.mem.db netAnchor (some [])).isOk = true := by decide +kernel
    rw [e1] at this; cases this
  | ok m1 =>
    have hm1 : m1 = initMem := by unfold initMem; rw [e1]
    subst hm1
    have R1 : OverRun wH n2.actor.store.mem.db netAnchor (some []) 5 initMem :=
      .init e1 (by decide +kernel)
    have R2 := OverRun.step (op := .insertSigned (sgn (mkBlock 5 4 []))) R1 (by
      intro hd h
      have : initMem.db.headers.get? ((sgn (mkBlock 5 4 [])).block.root wH) = none := by
        decide +kernel
      rw [this] at h
      cases h) rfl
    have R3 := OverRun.step (op := .updateCheckpoints 6 none none) R2 (by
      refine HAnc.up (hd := (mkBlock 5 4 []).header wH) (pd := netHeader) ?_ ?_ ?_ (.self (hd := netHeader) ?_)
      · decide +kernel
      · decide +kernel
      · decide +kernel
      · decide +kernel) (step_ok (by decide +kernel))
    exact ⟨_, R3, by decide +kernel, by decide +kernel, by decide +kernel, by decide +kernel,
      by decide +kernel⟩

instance : DecidableRel Conflict := fun x y => by
  cases x <;> cases y <;> unfold Conflict <;> infer_instance

theorem conflict4 : ¬ (out2 ++ out4).Pairwise (fun x y => ¬ Conflict x y) := by decide +kernel

/-- The blocks `n3` serves for slots 0 to 4: block 1 is on no chain that contains the head. -/
example : (getSignedBlocksBySlotRange wH n3.actor.store.mem.db 0 4).map
    (fun (x : SignedBlock) => x.block.slot) = [0, 1, 4] := by decide +kernel

def histOf (n : VNode) : List Root := match n.actor.store.getState n.actor.store.mem.db.head with
  | .ok (some st, _) => st.historicalBlockHashes
  | _ => []

example : histOf n3 = [1, 0, 0, 4] ∧ n3.actor.store.mem.db.head = 5 := by decide +kernel

example : Life dCtx 0 wEntries true true (vnode n5 [.timer 2001200 true, .timer 2005000 true])
    (out2 ++ vout n5 [.timer 2001200 true, .timer 2005000 true]) := by
  obtain ⟨s, d, e1, e2⟩ := boot_eq (d := some (Store.disk n2.actor.store)) (now := 2001000)
    (urls := []) (by decide +kernel)
  have h : Life dCtx 0 wEntries true true n5 out2 := by
    unfold n5
    rw [e2]
    have := Life.again life2 e1
    rwa [show (true && resumes n2.actor.store.mem.db 0 2001000 []) = true by decide +kernel] at this
  exact life_vgo h (vgo_eq (by decide +kernel))

example : (out2 ++ vout n5 [.timer 2001200 true, .timer 2005000 true]).map brief =
    [(0, 1, 0, 0, true), (2, 1, 0, 0, true), (0, 500, 1, 0, true), (2, 500, 1, 0, true),
      (0, 501, 1, 0, true), (2, 501, 1, 0, true)] := by
  decide +kernel

end Witness

/-- C93 is false for the code: a start that syncs from a checkpoint over an old database resets the
persisted clock, so that a validator votes a second time in the same slot. -/
theorem C93_false : ¬ ∀ (c : VCtx) (t : Nat) (entries : List (Nat × Nat)) (gate b : Bool) (n : VNode)
    (out : List Signed), c.ids.Nodup → Life c t entries gate b n out →
    out.Pairwise (fun x y => ¬ Conflict x y) := fun h =>
  Witness.conflict4 (h _ _ _ _ _ _ _ (by decide +kernel) Witness.life4)

/-- A block is the head or appears in the head state's list of earlier blocks. -/
def Canonical (H : Hash) (s : Store) (x : SignedBlock) : Prop :=
  ∃ st s', s.getState s.mem.db.head = .ok (some st, s') ∧
    (x.block.root H = s.mem.db.head ∨
      st.historicalBlockHashes[x.block.slot]? = some (x.block.root H))

/-- C92 is false for the code: after a start from a checkpoint over an old database, a range request
is answered with a block of the abandoned chain. -/
theorem C92_false : ¬ ∀ (c : VCtx) (t : Nat) (entries : List (Nat × Nat)) (gate b : Bool) (n : VNode)
    (out : List Signed), Life c t entries gate b n out → ∀ start stop,
    ∀ x ∈ getSignedBlocksBySlotRange c.H n.actor.store.mem.db start stop,
      Canonical c.H n.actor.store x := by
  intro h
  obtain ⟨st, s', e, hx⟩ := h _ _ _ _ _ _ _ Witness.life3 0 4
    (Node.Witness.sgn (Witness.mkBlock 1 0 [])) (by decide +kernel)
  have hh : Witness.histOf Witness.n3 = st.historicalBlockHashes := by
    unfold Witness.histOf
    rw [e]
  rcases hx with hx | hx
  · exact absurd hx (by decide +kernel)
  · rw [← hh] at hx
    exact absurd hx (by decide +kernel)

end Verif.Boot
