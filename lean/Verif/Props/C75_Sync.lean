import Verif.Props.C74_Records
import Verif.Lemmas.P2pRange
/-!
# C75: range sync from one honest peer

`C75_false`: a stretch of 1024 empty slots on the peer's chain stops the sync.  `C75_partial`: without
such stretches everything up to the peer's head, or up to 65536 slots, is delivered.
-/
namespace Verif.Net
open Verif

theorem filter_split {bs : List RBlock} (h : bs.Pairwise (fun x y => x.slot ≤ y.slot)) {a b c : Nat}
    (hab : a ≤ b) (hbc : b ≤ c) :
    bs.filter (fun x => decide (a ≤ x.slot ∧ x.slot < b)) ++
      bs.filter (fun x => decide (b ≤ x.slot ∧ x.slot < c))
      = bs.filter (fun x => decide (a ≤ x.slot ∧ x.slot < c)) := by
  induction bs with
  | nil => rfl
  | cons x bs ih =>
    obtain ⟨h1, h2⟩ := List.pairwise_cons.1 h
    have ih := ih h2
    by_cases hxb : x.slot < b
    · by_cases hxa : a ≤ x.slot
      · rw [List.filter_cons_of_pos (by simp; omega), List.filter_cons_of_neg (by simp; omega),
          List.filter_cons_of_pos (by simp; omega), List.cons_append, ih]
      · rw [List.filter_cons_of_neg (by simp; omega), List.filter_cons_of_neg (by simp; omega),
          List.filter_cons_of_neg (by simp; omega), ih]
    · have hnil : bs.filter (fun x => decide (a ≤ x.slot ∧ x.slot < b)) = [] := by
        rw [List.filter_eq_nil_iff]
        intro y hy
        have := h1 y hy
        simp; omega
      rw [hnil, List.nil_append] at ih
      rw [List.filter_cons_of_neg (by simp; omega), hnil, List.nil_append]
      by_cases hxc : x.slot < c
      · rw [List.filter_cons_of_pos (by simp; omega), List.filter_cons_of_pos (by simp; omega), ih]
      · rw [List.filter_cons_of_neg (by simp; omega), List.filter_cons_of_neg (by simp; omega), ih]

/-- The next batch when one peer is known, which is far enough ahead. -/
theorem nextBatch_one {ord : AMap Peer Nat → AMap Peer Nat} (hord : ∀ m, (ord m).Perm m) {p : Peer}
    {a stop head : Nat} (h1 : a < stop) (h2 : stop ≤ head + 1) (h3 : head + 1 < 2 ^ 64) :
    RangeSync.nextBatch ord ⟨a, stop, [(p, head)], false⟩ = some (p, a, min (a + 1024) stop) := by
  have ho : ord [(p, head)] = [(p, head)] := List.perm_singleton.1 (hord _)
  unfold RangeSync.nextBatch
  dsimp only
  rw [if_neg (by simp; omega), ho]
  have hf : List.filter (fun e : Peer × Nat => decide (a ≤ e.2)) [(p, head)] = [(p, head)] := by
    rw [List.filter_cons_of_pos (by simp; omega)]; rfl
  rw [hf]
  have hm : Build.maxByKey (fun e : Peer × Nat => e.2) [(p, head)] = some (p, head) := rfl
  rw [hm]
  dsimp only
  have e1 : min (min (satAdd a maxRequestBlocks) stop) (satAdd head 1) = min (a + 1024) stop := by
    unfold satAdd maxRequestBlocks; omega
  rw [e1, if_pos (by omega)]

/-- A request for the slots from `a` is open. -/
structure Syncing (w : PWorld) (outs : List POut) (p : Peer) (head stop a : Nat) : Prop where
  chain : w.srv.chain = true
  range : w.srv.range = some ⟨a, stop, [(p, head)], true⟩
  sent : ∃ id, rangeSends outs = [(id, p, a, min (a + 1024) stop - a)] ∧
    w.srv.outbound.get? id = some (.range a (min (a + 1024) stop - 1)) ∧ (id, p) ∈ w.inflight

theorem complete_one {p : Peer} {a stop head last : Nat} (h1 : last + 1 ≤ head + 1)
    (h3 : head + 1 < 2 ^ 64) (h4 : a ≤ last + 1) (h5 : last + 1 ≤ head) :
    RangeSync.complete ⟨a, stop, [(p, head)], true⟩ last = ⟨last + 1, stop, [(p, head)], false⟩ := by
  have e : max a (satAdd last 1) = last + 1 := by unfold satAdd; omega
  unfold RangeSync.complete RangeSync.dropStale
  dsimp only
  rw [e, List.filter_cons_of_pos (by simp; omega)]
  rfl

/-- One exchange with an honest peer that has a block in the requested window. -/
theorem sync_step {ord : AMap Peer Nat → AMap Peer Nat} (hord : ∀ m, (ord m).Perm m) {w : PWorld}
    {outs : List POut} {p : Peer} {head stop a : Nat} {bs : List RBlock}
    (h : Syncing w outs p head stop a) (h1 : a < stop) (h2 : stop ≤ head + 1) (h3 : head + 1 < 2 ^ 64)
    (hb : ∃ b ∈ bs, a ≤ b.slot ∧ b.slot < min (a + 1024) stop) {id : ReqId} {q : Peer} {a' c : Nat}
    {l : List (ReqId × Peer × Nat × Nat)} (hs : rangeSends outs = (id, q, a', c) :: l) :
    let res := w.step ord (.blocks id q (served bs a' c) true)
    w.allows (.blocks id q (served bs a' c) true) ∧
    forwards res.2
      = bs.filter (fun b => decide (a ≤ b.slot ∧ b.slot < min (a + 1024) stop)) ∧
    ((min (a + 1024) stop = stop ∧ rangeSends res.2 = [] ∧ res.1.srv.range = none ∧
        res.1.srv.chain = true) ∨
      (min (a + 1024) stop = a + 1024 ∧ a + 1024 < stop ∧
        Syncing res.1 res.2 p head stop (a + 1024))) := by
  obtain ⟨hc, hr, id', e1, e2, e3⟩ := h
  rw [e1] at hs
  cases hs
  intro res
  have hres : res = w.step ord (.blocks id p (served bs a (min (a + 1024) stop - a)) true) := rfl
  clear_value res
  refine ⟨e3, ?_⟩
  generalize hbe : min (a + 1024) stop = be at *
  have ea : a + (be - a) = be := by omega
  have hsv : served bs a (be - a) = bs.filter (fun b => decide (a ≤ b.slot ∧ b.slot < be)) := by
    unfold served; rw [ea]
  generalize hsb : bs.filter (fun b => decide (a ≤ b.slot ∧ b.slot < be)) = sb at *
  have hne : ¬ sb.isEmpty = true := by
    rw [List.isEmpty_iff]
    intro he
    obtain ⟨b, k1, k2⟩ := hb
    have : b ∈ sb := by rw [← hsb]; exact List.mem_filter.2 ⟨k1, decide_eq_true k2⟩
    rw [he] at this
    cases this
  have hff : sb.filter (fun b => decide (a ≤ b.slot ∧ b.slot ≤ be - 1)) = sb := by
    rw [List.filter_eq_self]
    intro b hb'
    rw [← hsb] at hb'
    have := (List.mem_filter.1 hb').2
    simp at this ⊢
    omega
  have hstep : w.srv.step ord w.next (.blocks id p (served bs a (be - a)) true)
      = byRangeResponse ord { w.srv with outbound := w.srv.outbound.erase id } w.next true p a (be - 1)
          sb := by
    rw [hsv]
    unfold Server.step
    dsimp only
    rw [e2]
  have hstart : (RangeSync.complete ⟨a, stop, [(p, head)], true⟩ (be - 1)).start = be := by
    unfold RangeSync.complete RangeSync.dropStale satAdd
    dsimp only
    omega
  unfold byRangeResponse at hstep
  rw [if_neg hne, if_neg (by simp [hc]), hff] at hstep
  dsimp only at hstep
  rw [hr] at hstep
  dsimp only at hstep
  unfold PWorld.step at hres
  by_cases hend : be = stop
  · rw [if_pos (.inl (by rw [hstart]; exact Nat.le_of_eq hend.symm))] at hstep
    rw [hstep] at hres
    subst hres
    dsimp only
    refine ⟨forwards_map sb, .inl ⟨hend, rangeSends_forwards ?_, rfl, hc⟩⟩
    intro o ho
    obtain ⟨b, -, rfl⟩ := List.mem_map.1 ho
    exact ⟨b, rfl⟩
  · have hbe' : be = a + 1024 := by omega
    have hlt : a + 1024 < stop := by omega
    have hcomp := complete_one (p := p) (a := a) (stop := stop) (head := head) (last := be - 1)
      (by omega) h3 (by omega) (by omega)
    have e4 : be - 1 + 1 = a + 1024 := by omega
    rw [e4] at hcomp
    rw [hcomp, if_neg (by simp; omega)] at hstep
    unfold requestNext at hstep
    dsimp only at hstep
    rw [nextBatch_one hord hlt h2 h3] at hstep
    dsimp only at hstep
    rw [if_neg (by simp)] at hstep
    rw [hstep] at hres
    subst hres
    dsimp only
    have hfw : OnlyForwards (sb.map POut.forward) := by
      intro o ho
      obtain ⟨b, -, rfl⟩ := List.mem_map.1 ho
      exact ⟨b, rfl⟩
    refine ⟨?_, .inr ⟨hbe', hlt, hc, rfl, w.next, ?_, ?_, ?_⟩⟩
    · rw [forwards_append, forwards_map]
      simp [forwards]
    · rw [rangeSends_append, rangeSends_forwards hfw]
      simp [rangeSends]
    · exact (AMap.get?_insert_self ..)
    · refine List.mem_append_right _ ?_
      rw [sends_append]
      simp [sends]

theorem PRun.trans {ord : AMap Peer Nat → AMap Peer Nat} {w1 w2 w3 : PWorld}
    {t1 t2 : List (PEvent × List POut)} (h1 : PRun ord w1 t1 w2) (h2 : PRun ord w2 t2 w3) :
    PRun ord w1 (t1 ++ t2) w3 := by
  induction h2 with
  | nil => rw [List.append_nil]; exact h1
  | snoc _ ha ih => rw [← List.append_assoc]; exact ih.snoc ha

/-- From an open request on, everything below `stop` is delivered. -/
theorem syncWith_all {ord : AMap Peer Nat → AMap Peer Nat} (hord : ∀ m, (ord m).Perm m) {p : Peer}
    {head stop : Nat} {bs : List RBlock} (hsort : bs.Pairwise (fun x y => x.slot ≤ y.slot))
    (h2 : stop ≤ head + 1) (h3 : head + 1 < 2 ^ 64) :
    ∀ (n : Nat) {w : PWorld} {outs : List POut} {a : Nat}, Syncing w outs p head stop a → a < stop →
      stop ≤ a + 1024 * n →
      (∀ k, a + 1024 * k < stop →
        ∃ b ∈ bs, a + 1024 * k ≤ b.slot ∧ b.slot < min (a + 1024 * k + 1024) stop) →
      (∃ tr, PRun ord w tr (syncWith ord bs n w outs).1 ∧
        (syncWith ord bs n w outs).2 = outs ++ outputs tr) ∧
      forwards (syncWith ord bs n w outs).2
        = forwards outs ++ bs.filter (fun b => decide (a ≤ b.slot ∧ b.slot < stop)) ∧
      (syncWith ord bs n w outs).1.srv.range = none := by
  intro n
  induction n with
  | zero => intro w outs a hs h1 hn; omega
  | succ n ih =>
    intro w outs a hs h1 hn hk
    obtain ⟨-, -, id, e1, -, -⟩ := id hs
    have h0 := hk 0 (by omega)
    rw [Nat.mul_zero, Nat.add_zero] at h0
    obtain ⟨k1, k2, k3⟩ := sync_step hord hs h1 h2 h3 h0 e1
    have hdef : syncWith ord bs (n + 1) w outs
        = ((syncWith ord bs n
              (w.step ord (.blocks id p (served bs a (min (a + 1024) stop - a)) true)).1
              (w.step ord (.blocks id p (served bs a (min (a + 1024) stop - a)) true)).2).1,
            outs ++ (syncWith ord bs n
              (w.step ord (.blocks id p (served bs a (min (a + 1024) stop - a)) true)).1
              (w.step ord (.blocks id p (served bs a (min (a + 1024) stop - a)) true)).2).2) := by
      conv => lhs; unfold syncWith
      rw [e1]
    generalize hev : PEvent.blocks id p (served bs a (min (a + 1024) stop - a)) true = ev at *
    rw [hdef]
    dsimp only
    have hone : PRun ord w [(ev, (w.step ord ev).2)] (w.step ord ev).1 := PRun.nil.snoc k1
    rcases k3 with ⟨k3, k4, k5, -⟩ | ⟨k3, k4, k5⟩
    · have hst : syncWith ord bs n (w.step ord ev).1 (w.step ord ev).2
          = ((w.step ord ev).1, (w.step ord ev).2) := by
        cases n with
        | zero => rfl
        | succ n => unfold syncWith; rw [k4]
      rw [hst]
      refine ⟨⟨_, hone, by simp [outputs]⟩, ?_, k5⟩
      rw [forwards_append, k2, k3]
    · obtain ⟨⟨tr, r1, r2⟩, i2, i3⟩ := ih k5 k4 (by omega) (fun k hk' => by
        have e : a + 1024 * (k + 1) = a + 1024 + 1024 * k := by
          rw [Nat.mul_add, Nat.mul_one, Nat.add_assoc a 1024, Nat.add_comm 1024]
        have := hk (k + 1) (by rw [e]; exact hk')
        rw [e] at this
        exact this)
      refine ⟨⟨_, hone.trans r1, ?_⟩, ?_, i3⟩
      · rw [r2]; simp [outputs]
      · rw [forwards_append, i2, k2, k3, filter_split hsort (by omega) (by omega)]

/-- The first request of a sync. -/
theorem sync_start {ord : AMap Peer Nat → AMap Peer Nat} (hord : ∀ m, (ord m).Perm m) {w : PWorld}
    {p : Peer} {head ourHead : Nat} (hc : w.srv.chain = true) (hr : w.srv.range = none)
    (h1 : ourHead < head) (h3 : head + 1 < 2 ^ 64) :
    Syncing (w.step ord (.status p head ourHead true)).1 (w.step ord (.status p head ourHead true)).2 p
      head (min head (ourHead + 65536) + 1) (ourHead + 1) ∧
    forwards (w.step ord (.status p head ourHead true)).2 = [] := by
  have e1 : satAdd ourHead 1 = ourHead + 1 := by unfold satAdd; omega
  have e2 : satAdd (ourHead + 1) (min (head - ourHead) maxSyncRange)
      = min head (ourHead + 65536) + 1 := by
    unfold satAdd maxSyncRange maxRequestBlocks; omega
  have hstep : w.srv.step ord w.next (.status p head ourHead true)
      = ({ w.srv with
            range := some ⟨ourHead + 1, min head (ourHead + 65536) + 1, [(p, head)], true⟩,
            outbound := w.srv.outbound.insert w.next
              (.range (ourHead + 1) (min (ourHead + 1 + 1024) (min head (ourHead + 65536) + 1) - 1)) },
          [.sendRange w.next p (ourHead + 1)
            (min (ourHead + 1 + 1024) (min head (ourHead + 65536) + 1) - (ourHead + 1))]) := by
    show statusResponse ord w.srv w.next true p head ourHead = _
    unfold statusResponse
    rw [if_neg (by omega)]
    dsimp only
    rw [hr, e1, e2]
    dsimp only
    unfold requestNext
    dsimp only
    rw [nextBatch_one hord (by omega) (by omega) h3]
    dsimp only
    rw [if_neg (by simp)]
  unfold PWorld.step
  rw [hstep]
  dsimp only
  refine ⟨⟨hc, rfl, w.next, rfl, AMap.get?_insert_self .., ?_⟩, rfl⟩
  exact List.mem_append_right _ (List.mem_singleton_self _)

/-- **C75, when no batch is empty.** Our head is at `ourHead`, no sync is going on, and a peer with the
chain `bs` tells us that its head is at `head`.  If each of the windows of 1024 slots that follow our
head has a block on that chain, then 64 answers of the peer are enough for the sync to end, and the
blocks handed to the chain are exactly those of `bs` after our head, up to the peer's head but not
further than 65536 slots, in order. -/
theorem C75_partial {ord : AMap Peer Nat → AMap Peer Nat} (hord : ∀ m, (ord m).Perm m) {w : PWorld}
    {p : Peer} {head ourHead : Nat} {bs : List RBlock}
    (hc : w.srv.chain = true) (hr : w.srv.range = none)
    (h1 : ourHead < head) (h3 : head + 1 < 2 ^ 64)
    (hsort : bs.Pairwise (fun x y => x.slot ≤ y.slot))
    (hwin : ∀ k, ourHead + 1024 * k < min head (ourHead + 65536) →
      ∃ b ∈ bs, ourHead + 1024 * k < b.slot ∧ b.slot ≤ ourHead + 1024 * (k + 1) ∧
        b.slot ≤ min head (ourHead + 65536)) {n : Nat} (hn : 64 ≤ n) :
    (∃ tr, PRun ord w tr (syncFrom ord bs n w p head ourHead).1 ∧
      (syncFrom ord bs n w p head ourHead).2 = outputs tr) ∧
    forwards (syncFrom ord bs n w p head ourHead).2
      = bs.filter (fun b => decide (ourHead < b.slot ∧ b.slot ≤ min head (ourHead + 65536))) ∧
    (syncFrom ord bs n w p head ourHead).1.srv.range = none := by
  obtain ⟨k1, k2⟩ := sync_start hord (p := p) hc hr h1 h3
  obtain ⟨⟨tr, r1, r2⟩, i2, i3⟩ := syncWith_all hord hsort (by omega) h3 n k1 (by omega) (by omega)
    (fun k hk => by
      obtain ⟨b, b1, b2, b3, b4⟩ := hwin k (by omega)
      exact ⟨b, b1, by omega, by omega⟩)
  have hone : PRun ord w [(.status p head ourHead true, (w.step ord (.status p head ourHead true)).2)]
      (w.step ord (.status p head ourHead true)).1 :=
    PRun.nil.snoc ⟨Nat.lt_of_succ_lt h3, by omega⟩
  refine ⟨⟨_, hone.trans r1, ?_⟩, ?_, i3⟩
  · show (syncWith ord bs n _ _).2 = _
    rw [r2]; simp [outputs]
  · show forwards (syncWith ord bs n _ _).2 = _
    rw [i2, k2, List.nil_append]
    congr 1
    funext b
    rw [decide_eq_decide]
    omega

/-- Every slot has a block: the chain is longer than one batch, and all of it after slot 2 arrives. -/
example : ∃ w : PWorld, (∃ tr, PRun id PWorld.init tr w) ∧ w.srv.chain = true ∧ w.srv.range = none :=
  ⟨_, ⟨_, PRun.nil.snoc (e := .initChain) trivial⟩, rfl, rfl⟩

example (n : Nat) (hn : 64 ≤ n) : forwards (syncFrom id ((List.range 3001).map (fun i => ⟨i + 100, i⟩)) n
      (PWorld.init.step id .initChain).1 7 3000 2).2
    = ((List.range 3001).map (fun i => (⟨i + 100, i⟩ : RBlock))).filter
        (fun b => decide (2 < b.slot ∧ b.slot ≤ 3000)) := by
  refine (C75_partial (fun m => List.Perm.refl m) rfl rfl (by decide) (by decide) ?_ ?_ hn).2.1
  · rw [List.pairwise_map]
    exact List.pairwise_lt_range.imp (fun h => Nat.le_of_lt h)
  · intro k hk
    refine ⟨⟨(2 + 1024 * k + 1) + 100, 2 + 1024 * k + 1⟩, List.mem_map.2 ⟨2 + 1024 * k + 1, ?_, rfl⟩, ?_⟩
    · rw [List.mem_range]; omega
    · dsimp only; omega

/-- **C75 does not hold** when the peer's chain has 1024 empty slots after our head: however far its
head is ahead, the first batch is empty, the peer is dropped, and nothing is delivered. -/
theorem C75_gap {ord : AMap Peer Nat → AMap Peer Nat} (hord : ∀ m, (ord m).Perm m) {w : PWorld}
    {p : Peer} {head ourHead : Nat} {bs : List RBlock}
    (hc : w.srv.chain = true) (hr : w.srv.range = none)
    (h1 : ourHead + 1024 < head) (h3 : head + 1 < 2 ^ 64)
    (hgap : ∀ b ∈ bs, b.slot ≤ ourHead ∨ ourHead + 1024 < b.slot) (n : Nat) :
    forwards (syncFrom ord bs n w p head ourHead).2 = [] ∧
    (1 ≤ n → (syncFrom ord bs n w p head ourHead).1.srv.chain = true ∧
      (syncFrom ord bs n w p head ourHead).1.srv.range = none) := by
  obtain ⟨⟨hc', hr', id, e1, e2, e3⟩, k2⟩ := sync_start hord (p := p) (ourHead := ourHead) hc hr (by omega) h3
  unfold syncFrom
  dsimp only
  generalize hw1 : (w.step ord (.status p head ourHead true)).1 = w1 at *
  generalize ho1 : (w.step ord (.status p head ourHead true)).2 = o1 at *
  cases n with
  | zero => exact ⟨k2, fun h => absurd h (by decide)⟩
  | succ n =>
    have hbe : min (ourHead + 1 + 1024) (min head (ourHead + 65536) + 1) = ourHead + 1 + 1024 := by omega
    rw [hbe] at e1 e2
    have hsv : served bs (ourHead + 1) (ourHead + 1 + 1024 - (ourHead + 1)) = [] := by
      unfold served
      rw [List.filter_eq_nil_iff]
      intro b hb
      have := hgap b hb
      simp
      omega
    have hstep : w1.step ord (.blocks id p [] true)
        = (⟨{ w1.srv with outbound := w1.srv.outbound.erase id, range := none }, w1.next,
            w1.inflight.filter (fun x => decide (x.1 ≠ id)), w1.timers⟩, []) := by
      have : w1.srv.step ord w1.next (.blocks id p [] true)
          = ({ w1.srv with outbound := w1.srv.outbound.erase id, range := none }, []) := by
        unfold Server.step
        dsimp only
        rw [e2]
        dsimp only
        unfold byRangeResponse
        rw [if_pos (by simp)]
        unfold failRange
        dsimp only
        rw [hr']
        dsimp only
        have : (RangeSync.failPeer ⟨ourHead + 1, min head (ourHead + 65536) + 1, [(p, head)], true⟩ p).peers
            = [] := by
          unfold RangeSync.failPeer RangeSync.dropStale AMap.erase
          simp
        rw [this]
        rfl
      unfold PWorld.step
      rw [this]
      simp [sends, timersOf, PWorld.rest, PWorld.restTimers]
    have hdef : syncWith ord bs (n + 1) w1 o1
        = (⟨{ w1.srv with outbound := w1.srv.outbound.erase id, range := none }, w1.next,
            w1.inflight.filter (fun x => decide (x.1 ≠ id)), w1.timers⟩, o1) := by
      unfold syncWith
      rw [e1]
      dsimp only
      rw [hsv, hstep]
      cases n with
      | zero => simp [syncWith]
      | succ n => simp [syncWith, rangeSends]
    rw [hdef]
    exact ⟨k2, fun _ => ⟨hc', rfl⟩⟩

/-- Repeating the status message and the honest answer `m` times. -/
def syncAgain (ord : AMap Peer Nat → AMap Peer Nat) (bs : List RBlock) (p : Peer) (head ourHead : Nat) :
    Nat → PWorld → List POut
  | 0, _ => []
  | m + 1, w =>
    let res := syncFrom ord bs 64 w p head ourHead
    res.2 ++ syncAgain ord bs p head ourHead m res.1

/-- **C75 does not hold**: with a block at slot 1100 and none before it, however often the peer tells
its head and answers the requests, a node at slot 0 gets nothing. -/
theorem C75_false (m : Nat) :
    forwards (syncAgain id [⟨1, 1100⟩] 7 1100 0 m (PWorld.init.step id .initChain).1) = [] := by
  have key : ∀ (m : Nat) (w : PWorld), w.srv.chain = true → w.srv.range = none →
      forwards (syncAgain id [⟨1, 1100⟩] 7 1100 0 m w) = [] := by
    intro m
    induction m with
    | zero => intro w _ _; rfl
    | succ m ih =>
      intro w hc hr
      obtain ⟨k1, k2⟩ := C75_gap (ord := id) (fun m => List.Perm.refl m) (p := 7) (head := 1100)
        (ourHead := 0) (bs := [⟨1, 1100⟩]) hc hr (by decide) (by decide)
        (by intro b hb; rw [List.mem_singleton] at hb; rw [hb]; decide) 64
      obtain ⟨k2, k3⟩ := k2 (by decide)
      unfold syncAgain
      dsimp only
      rw [forwards_append, k1, ih _ k2 k3]
      rfl
  exact key m _ rfl rfl

end Verif.Net
