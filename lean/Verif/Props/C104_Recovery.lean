import Verif.Lemmas.TrackRun
import Verif.Lemmas.PaceRun
import Verif.Props.C94_Solo
/-!
# C104: finality after a pause of the aggregator
-/
namespace Verif.Node
open Verif Verif.Db Verif.Sync

section
variable {c : VCtx} {t : Nat} {vals : List Validator} {on : Nat → Bool}

/-- **C104, what happens.** A node runs all 2 to 2048 validators of its network, and its timers are on
time. It is an aggregator in the slots `i` with `on i`, among them the first three. Then it misses no
duty, and its justified and finalized slots are those of the recurrence `pace`. -/
theorem C104_pace (Q : Equipped c vals) (hv : 2 ≤ vals.length) (hv' : vals.length ≤ 2048)
    (hon : ∀ i, i < 3 → on i = true) {s : Nat} {n : VNode} {l : List Signed}
    (h : Switched c t vals on s n l) (hl : Clean c t vals l) (h3 : 3 ≤ s)
    (hs : s ≤ historicalRootsLimit) :
    headSlot n.actor.store = .ok s ∧ n.actor.store.mem.db.justified.slot = (pace on s).just ∧
      n.actor.store.mem.db.finalized.slot = (pace on s).fin ∧ AllDone vals s l := by
  obtain ⟨root, anchor, f, z, top, ops, -, C, hp, done⟩ := switched_paced Q hv hv' hon hl h h3 hs
    (fun _ hx => hx)
  exact ⟨C.track.headSlot, by rw [← hp]; exact C.track.just, by rw [← hp]; exact C.track.fin, done⟩

/-- It goes on, whatever the roles, if the hash functions have no collisions at all. -/
theorem C104_never_stops (Q : Equipped c vals) (hv : 2 ≤ vals.length) (hv' : vals.length ≤ 2048)
    (hon : ∀ i, i < 3 → on i = true) {s : Nat} {n : VNode} {l : List Signed}
    (h : Switched c t vals on s n l) (hl : ∀ l, Clean c t vals l) (hs : s < historicalRootsLimit)
    {w : Times} (hw : OnTime t s w) : ∃ n' l', n.slotAs c (on s) s w = .ok (n', l') := by
  rcases Nat.lt_or_ge s 3 with hlt | hge
  · rw [hon s hlt, slotAs_true]
    exact C94_never_stops_partial Q hv hv' (h.solo (fun i hi => hon i (by omega))) hl hs hw
  · exact switched_next Q hv hv' hon hl h hge hs hw

/-- **C104, finality comes back, within twelve slots of the head.** If the node is an aggregator in
all slots from `a` on, and at the start of slot `a` its finalized slot was `d` behind, then from slot
`a + d` on it is at most 12 behind, for good.
Missing: it used to be three behind (`C94_advances_partial`); that may never be so again
(`C104_pace_regained_false`). -/
theorem C104_resumes_partial (Q : Equipped c vals) (hv : 2 ≤ vals.length) (hv' : vals.length ≤ 2048)
    (hon : ∀ i, i < 3 → on i = true) {a : Nat} (ha : 3 ≤ a) (hon' : ∀ i, a ≤ i → on i = true)
    {m : VNode} {k : List Signed} (hm : Switched c t vals on a m k) (hk : Clean c t vals k)
    {s : Nat} {n : VNode} {l : List Signed} (h : Switched c t vals on s n l) (hl : Clean c t vals l)
    (hd : a + (a - m.actor.store.mem.db.finalized.slot) ≤ s) (hs : s ≤ historicalRootsLimit) :
    headSlot n.actor.store = .ok s ∧ s ≤ n.actor.store.mem.db.finalized.slot + 12 := by
  have hlim : historicalRootsLimit = 262144 := rfl
  obtain ⟨-, -, h1, -⟩ := C104_pace Q hv hv' hon hm hk ha (by omega)
  obtain ⟨h2, -, h3, -⟩ := C104_pace Q hv hv' hon h hl (by omega) hs
  refine ⟨h2, ?_⟩
  obtain ⟨x, rfl⟩ : ∃ x, s = a + x := ⟨s - a, by omega⟩
  have := settles (pace_ok on a) (n := x) (by
    unfold Pace.lag
    rw [pace_slot on ha, ← h1]
    omega) (by rw [pace_slot on ha]; omega)
  rw [← pace_run ha x (fun i h _ => hon' i h)] at this
  unfold Pace.lag at this
  rw [pace_slot on (by omega), ← h3] at this
  omega

/-- **C104 is false: the pace is not regained.** The aggregator pauses in any three slots `a`, `a + 1`,
`a + 2` and never again. Before, the finalized slot is three behind the head; from slot `a + 4` on it
is 7 to 12 behind, for good: it moves by six slots every six slots. -/
theorem C104_slow_forever (Q : Equipped c vals) (hv : 2 ≤ vals.length) (hv' : vals.length ≤ 2048)
    {a : Nat} (ha : 3 ≤ a) {s : Nat} {n : VNode} {l : List Signed}
    (h : Switched c t vals (offThree a) s n l) (hl : Clean c t vals l)
    (hs : s ≤ historicalRootsLimit) :
    (3 ≤ s → s ≤ a → n.actor.store.mem.db.finalized.slot + 3 = s) ∧
    (a + 4 ≤ s → n.actor.store.mem.db.finalized.slot + 7 + (s - (a + 4)) % 6 = s) := by
  have hon : ∀ i, i < 3 → offThree a i = true := by
    intro i hi
    unfold offThree
    simp only [Bool.not_eq_true', Bool.and_eq_false_iff, decide_eq_false_iff_not]
    omega
  constructor
  · intro h3 h4
    obtain ⟨-, -, h1, -⟩ := C104_pace Q hv hv' hon h hl h3 hs
    rw [h1, pace_before h3 h4]
    show 0 + (s - 3) + 3 = s
    omega
  · intro h3
    obtain ⟨-, -, h1, -⟩ := C104_pace Q hv hv' hon h hl (by omega) hs
    rw [h1]
    exact pace_slow_fin ha h3

end

namespace Witness
open Verif.Witness

theorem switched_of_solo {c : VCtx} {t : Nat} {vals : List Validator} {on : Nat → Bool} {s : Nat}
    {n : VNode} {l : List Signed} (h : Solo c t vals s n l) (hon : ∀ i, i < s → on i = true) :
    Switched c t vals on s n l := by
  induction h with
  | start gate h => exact .start gate h
  | @slot s n n' l l' w h hw hs ih =>
    refine .slot (ih (fun i hi => hon i (Nat.lt_succ_of_lt hi))) hw ?_
    rw [hon s (Nat.lt_succ_self _), slotAs_true]
    exact hs

/-- There are such runs, for all roles and as long as a state can count slots. -/
theorem C104_runs {on : Nat → Bool} (hon : ∀ i, i < 3 → on i = true) : ∀ s,
    s ≤ historicalRootsLimit → ∃ n l, Switched idealCtx 0 wVals on s n l
  | 0, _ => by
    obtain ⟨n, l, h, -⟩ := C94_ideal_run 0 (by decide)
    exact ⟨n, l, switched_of_solo h (fun i hi => by omega)⟩
  | s + 1, hs => by
    obtain ⟨n, l, h⟩ := C104_runs hon s (by omega)
    obtain ⟨n', l', h'⟩ := C104_never_stops ideal_equipped (by decide) (by decide) hon h ideal_clean hs
      (soloTimes_ok s)
    exact ⟨n', _, .slot h (soloTimes_ok s) h'⟩

/-- **C104 is false, with runs.** With three validators and an aggregator that pauses in slots 10, 11
and 12: at the start of slot 10 the finalized slot is three behind, and in every slot from 14 on, as
long as a state can count slots, at least seven. -/
theorem C104_pace_regained_false :
    (∃ n l, Switched idealCtx 0 wVals (offThree 10) 10 n l ∧
      n.actor.store.mem.db.finalized.slot = 7) ∧
    ∀ s, 14 ≤ s → s ≤ historicalRootsLimit → ∃ n l, Switched idealCtx 0 wVals (offThree 10) s n l ∧
      headSlot n.actor.store = .ok s ∧ n.actor.store.mem.db.finalized.slot + 7 ≤ s := by
  have hon : ∀ i, i < 3 → offThree 10 i = true := by decide
  constructor
  · obtain ⟨n, l, h⟩ := C104_runs hon 10 (by decide)
    have := (C104_slow_forever ideal_equipped (by decide) (by decide) (by decide) h (ideal_clean l)
      (by decide)).1 (by decide) (by decide)
    exact ⟨n, l, h, by omega⟩
  · intro s h1 h2
    obtain ⟨n, l, h⟩ := C104_runs hon s h2
    have := (C104_slow_forever ideal_equipped (by decide) (by decide) (by decide) h (ideal_clean l)
      h2).2 h1
    exact ⟨n, l, h, (C104_pace ideal_equipped (by decide) (by decide) hon h (ideal_clean l)
      (by omega) h2).1, by omega⟩

/-- The hypotheses of `C104_resumes_partial` hold for an aggregator that pauses for 100 slots. -/
example : ∃ m k n l, Switched idealCtx 0 wVals (fun i => !(decide (10 ≤ i) && decide (i < 110))) 110 m k ∧
    Switched idealCtx 0 wVals (fun i => !(decide (10 ≤ i) && decide (i < 110))) 230 n l ∧
    110 + (110 - m.actor.store.mem.db.finalized.slot) ≤ 230 ∧
    230 ≤ n.actor.store.mem.db.finalized.slot + 12 := by
  have hon : ∀ i, i < 3 → (!(decide (10 ≤ i) && decide (i < 110))) = true := by decide
  obtain ⟨m, k, hm⟩ := C104_runs (on := fun i => !(decide (10 ≤ i) && decide (i < 110))) hon 110
    (by decide)
  obtain ⟨n, l, hn⟩ := C104_runs (on := fun i => !(decide (10 ≤ i) && decide (i < 110))) hon 230
    (by decide)
  refine ⟨m, k, n, l, hm, hn, by omega, ?_⟩
  exact (C104_resumes_partial ideal_equipped (by decide) (by decide) hon (a := 110) (by decide)
    (by intro i hi; simp; omega) hm (ideal_clean k) hn (ideal_clean l) (by omega) (by decide)).2

end Witness
end Verif.Node
