import Verif.Model.Monitor
import Mathlib.Data.List.Sort
import Mathlib.Tactic.Linarith
/-!
# C106: what the event monitor says about an event and about a node
-/
namespace Verif.Monitor
open Verif

/-- When a slot begins, in milliseconds. -/
def Timing.begins (t : Timing) (slot : Nat) : Int := (t.genesisTime * 1000 + slot * t.msPerSlot : Nat)

theorem asI64_small {n : Nat} (h : n < 2 ^ 63) : asI64 n = n := by
  unfold asI64
  rw [if_pos h]

theorem i64_in {x : Int} (h1 : -2 ^ 63 ≤ x) (h2 : x < 2 ^ 63) : i64 x = some x := by
  unfold i64
  rw [if_pos ⟨h1, h2⟩]

theorem Timing.bounds {t : Timing} (h : t.valid = true) :
    1 ≤ t.msPerSlot ∧ t.msPerSlot ≤ 3600000 ∧ t.genesisTime ≤ 4102444800 := by
  unfold Timing.valid maxMsPerSlot maxGenesisTime at h
  simp only [Bool.and_eq_true, Bool.not_eq_true', Bool.or_eq_false_iff, beq_eq_false_iff_ne,
    decide_eq_false_iff_not] at h
  omega

theorem slotAt_eq {t : Timing} (ht : t.valid = true) {now : Int} (h1 : 0 ≤ now) (h2 : now ≤ 2 ^ 62) :
    t.slotAt now = some ((now - t.genesisTime * 1000).toNat / t.msPerSlot) := by
  obtain ⟨b1, b2, b3⟩ := Timing.bounds ht
  unfold Timing.slotAt
  rw [asI64_small (by omega), i64_in (by omega) (by omega)]
  simp only [Option.bind_eq_bind, Option.bind_some, Option.pure_def]
  rw [show max (-2 ^ 63) (min (2 ^ 63 - 1) (now - (t.genesisTime : Int) * 1000)) =
    now - t.genesisTime * 1000 by omega, show max t.msPerSlot 1 = t.msPerSlot by omega]
  split
  · rw [show (now - (t.genesisTime : Int) * 1000).toNat = 0 by omega, Nat.zero_div]
  · rfl

theorem offset_core {g prod arrival : Int} (g0 : 0 ≤ g) (g1 : g ≤ 4102444800) (h1 : 0 ≤ arrival)
    (h2 : arrival ≤ 2 ^ 62) (h0 : 0 ≤ prod) (hs : prod ≤ 2 ^ 62 + 2 ^ 60) :
    (do let x ← i64 (g * 1000)
        let y ← i64 prod
        let z ← i64 (x + y)
        i64 (arrival - z)) = some (arrival - (g * 1000 + prod)) := by
  rw [i64_in (x := g * 1000) (by omega) (by omega), i64_in (x := prod) (by omega) (by omega)]
  simp only [Option.bind_eq_bind, Option.bind_some]
  rw [i64_in (x := g * 1000 + prod) (by omega) (by omega)]
  simp only [Option.bind_some]
  rw [i64_in (by omega) (by omega)]

theorem offset_eq {t : Timing} (ht : t.valid = true) {slot : Nat} {arrival : Int}
    (h1 : 0 ≤ arrival) (h2 : arrival ≤ 2 ^ 62) (hs : (slot : Int) * t.msPerSlot ≤ 2 ^ 62 + 2 ^ 60) :
    t.offsetMs slot arrival = some (arrival - t.begins slot) := by
  obtain ⟨b1, b2, b3⟩ := Timing.bounds ht
  have hs' : slot < 2 ^ 63 := by
    have h3 : slot ≤ slot * t.msPerSlot := Nat.le_mul_of_pos_right _ b1
    have h4 : (slot : Int) ≤ ((slot * t.msPerSlot : Nat) : Int) := Int.ofNat_le.2 h3
    rw [Int.natCast_mul] at h4
    omega
  have h0 : (0 : Int) ≤ (slot : Int) * t.msPerSlot := Int.mul_nonneg (by omega) (by omega)
  have e1 : t.begins slot = t.genesisTime * 1000 + slot * t.msPerSlot := by
    unfold Timing.begins
    rw [Int.natCast_add, Int.natCast_mul, Int.natCast_mul]
    norm_num
  unfold Timing.offsetMs
  rw [e1, asI64_small (n := t.genesisTime) (by omega), asI64_small hs',
    asI64_small (n := t.msPerSlot) (by omega)]
  exact offset_core (by omega) (by omega) h1 h2 h0 hs

/-- **C106.** For every geometry the monitor accepts, every frame of a known topic that can be parsed and
every time from 1970 on (for 146 million years): the event is dropped if it arrives more than
eight slots before its own slot begins, and otherwise it is shown with the time since its slot began, which
may be negative. No frame makes the arithmetic overflow. -/
theorem C106_offset {J : Type} {p : Parsers J} {t : Timing} (ht : t.valid = true) (node : Nat)
    {topic : Node.Topic} {data : J} {arrival : Int} (h1 : 0 ≤ arrival) (h2 : arrival ≤ 2 ^ 62)
    {slot : Nat} {id validator participants : Option Nat}
    (hp : payload p topic data = some (slot, id, validator, participants)) :
    normalize p node topic.name data arrival t =
      if slot ≤ 8 ∨ t.begins (slot - 8) ≤ arrival then
        .ok ⟨node, topic, slot, arrival, arrival - t.begins slot, id, validator, participants⟩
      else .error .implausibleSlot := by
  obtain ⟨b1, b2, b3⟩ := Timing.bounds ht
  have hname : Node.Topic.ofName topic.name = some topic := by cases topic <;> decide
  unfold normalize
  rw [hname]
  simp only [hp, slotAt_eq ht h1 h2]
  generalize hn : (arrival - (t.genesisTime : Int) * 1000).toNat / t.msPerSlot = n
  have hnle : n * t.msPerSlot ≤ (arrival - (t.genesisTime : Int) * 1000).toNat := by
    rw [← hn]; exact Nat.div_mul_le_self _ _
  have hnlt : (arrival - (t.genesisTime : Int) * 1000).toNat < (n + 1) * t.msPerSlot := by
    rw [← hn]; exact Nat.lt_mul_of_div_lt (Nat.lt_succ_self _) b1
  have hn1 : n ≤ n * t.msPerSlot := Nat.le_mul_of_pos_right _ b1
  have key : slot > min u64Max (n + maxFutureSlots) ↔ ¬ (slot ≤ 8 ∨ t.begins (slot - 8) ≤ arrival) := by
    have hmin : min u64Max (n + maxFutureSlots) = n + 8 := by
      unfold u64Max maxFutureSlots; omega
    rw [hmin, not_or]
    constructor
    · intro h
      refine ⟨by omega, ?_⟩
      unfold Timing.begins
      have h3 : (n + 1) * t.msPerSlot ≤ (slot - 8) * t.msPerSlot := Nat.mul_le_mul_right _ (by omega)
      omega
    · rintro ⟨h3, h4⟩
      by_contra hc
      apply h4
      unfold Timing.begins
      have h5 : (slot - 8) * t.msPerSlot ≤ n * t.msPerSlot := Nat.mul_le_mul_right _ (by omega)
      have h6 : 1 ≤ n := by omega
      have h7 : 1 ≤ n * t.msPerSlot := by omega
      omega
  by_cases hc : slot ≤ 8 ∨ t.begins (slot - 8) ≤ arrival
  · rw [if_neg (fun h => (key.1 h) hc), if_pos hc]
    have hle : slot ≤ n + 8 := by
      have : ¬ slot > min u64Max (n + maxFutureSlots) := fun h => (key.1 h) hc
      unfold u64Max maxFutureSlots at this
      omega
    have h3 : slot * t.msPerSlot ≤ (n + 8) * t.msPerSlot := Nat.mul_le_mul_right _ hle
    have h4 : (n + 8) * t.msPerSlot = n * t.msPerSlot + 8 * t.msPerSlot := Nat.add_mul _ _ _
    have h5 : slot * t.msPerSlot ≤ 2 ^ 62 + 2 ^ 60 := by omega
    rw [offset_eq ht h1 h2 (by exact_mod_cast h5)]
  · rw [if_pos (key.2 hc), if_neg hc]

/-- The same aggregate seen by two nodes has one id, however the participants are listed. -/
theorem C106_same_aggregate {J : Type} (p : Parsers J) (d : AttData) {l l' : List Nat} (h : l.Perm l') :
    aggregateId p d l = aggregateId p d l' := by
  unfold aggregateId
  congr 1
  exact List.Perm.eq_of_sortedLE
    (List.sortedLE_insertionSort) (List.sortedLE_insertionSort)
    ((List.perm_insertionSort _ _).trans (h.trans (List.perm_insertionSort _ _).symm))

/-- Different aggregates have different ids, unless the hash has a collision. -/
theorem C106_other_aggregate {J : Type} (p : Parsers J) (hi : ∀ d l d' l', p.hash d l = p.hash d' l' → d = d' ∧ l = l')
    {d d' : AttData} {l l' : List Nat} (h : aggregateId p d l = aggregateId p d' l') : d = d' ∧ l.Perm l' := by
  obtain ⟨h1, h2⟩ := hi _ _ _ _ h
  refine ⟨h1, (List.perm_insertionSort (· ≤ ·) l).symm.trans ?_⟩
  rw [h2]
  exact List.perm_insertionSort _ _

/-! ## The state of a node -/

/-- A collector after some attempts, the newest first. -/
def Collector.run : List Attempt → Collector
  | [] => .start
  | a :: l => (Collector.run l).round a

/-- The attempts since the last healthy session, without it. -/
def failures (l : List Attempt) : Nat := (l.takeWhile (fun a => !a.healthy)).length

theorem publish_delay (c : Collector) (s : NodeState) : (c.publishChange s).delay = c.delay := by
  unfold Collector.publishChange
  split <;> rfl

theorem publish_head (c : Collector) (s : NodeState) : (c.publishChange s).published.head? = some s := by
  unfold Collector.publishChange
  split
  · assumption
  · rfl

theorem beats_delay (n : Nat) (c : Collector) :
    ((List.replicate n NodeState.connected).foldl Collector.publish c).delay = c.delay := by
  induction n generalizing c with
  | zero => rfl
  | succ n ih => rw [List.replicate_succ, List.foldl_cons, ih]; rfl

/-- The number of doublings of the delay before the last wait. -/
def ramp (l : List Attempt) : Nat := if l.any Attempt.healthy then failures l else l.length - 1

theorem round_delay (c : Collector) (a : Attempt) :
    (c.round a).delay = min ((if a.healthy then 250 else c.delay) * 2) 10000 := by
  unfold Collector.round
  rw [publish_delay]
  simp only [initialBackoff, maxBackoff]
  cases a.connected <;> cases a.healthy <;>
    simp only [beats_delay, if_true, if_false, Bool.false_eq_true]

theorem round_state (c : Collector) (a : Attempt) : (c.round a).published.head? =
    some (if (if a.healthy then 250 else c.delay) ≥ 10000 then .down else .reconnecting) := by
  unfold Collector.round
  rw [publish_head]
  simp only [initialBackoff, maxBackoff]
  cases a.connected <;> cases a.healthy <;>
    simp only [beats_delay, if_true, if_false, Bool.false_eq_true]

theorem min_pow (k : Nat) : min (min (250 * 2 ^ k) 10000 * 2) 10000 = min (250 * 2 ^ (k + 1)) 10000 := by
  rw [Nat.pow_succ]
  omega

theorem failures_cons (a : Attempt) (l : List Attempt) :
    failures (a :: l) = if a.healthy then 0 else failures l + 1 := by
  unfold failures
  rw [List.takeWhile_cons]
  cases a.healthy <;> simp

theorem failures_all {l : List Attempt} (h : l.any Attempt.healthy = false) : failures l = l.length := by
  induction l with
  | nil => rfl
  | cons a l ih =>
    rw [List.any_cons, Bool.or_eq_false_iff] at h
    rw [failures_cons, h.1, ih h.2]
    rfl

/-- The delay that `advance` will return next, after an attempt that was not healthy. -/
def nextRamp (l : List Attempt) : Nat := if l.any Attempt.healthy then failures l + 1 else l.length

theorem run_delay (l : List Attempt) : (Collector.run l).delay = min (250 * 2 ^ nextRamp l) 10000 := by
  induction l with
  | nil => rfl
  | cons a l ih =>
    show ((Collector.run l).round a).delay = _
    rw [round_delay, ih]
    unfold nextRamp
    rw [failures_cons, List.any_cons]
    cases a.healthy with
    | true => simp
    | false =>
      simp only [Bool.false_or, Bool.false_eq_true, if_false, List.length_cons]
      rw [min_pow]
      split <;> rfl

/-- **C106.** A node is reported down exactly when its last six attempts to connect, after a session that
lasted at least one heartbeat, all failed or broke off before the first heartbeat; seven if it never had such
a session. Otherwise it is reported as reconnecting. -/
theorem C106_down (a : Attempt) (l : List Attempt) :
    (Collector.run (a :: l)).published.head? = some
      (if (if (a :: l).any Attempt.healthy then 6 else 7) ≤ failures (a :: l) then .down
       else .reconnecting) := by
  show ((Collector.run l).round a).published.head? = _
  rw [round_state, run_delay]
  congr 1
  have big : ∀ k, min (250 * 2 ^ k) 10000 ≥ 10000 ↔ 6 ≤ k := by
    intro k
    constructor
    · intro h
      by_contra hc
      have : k = 0 ∨ k = 1 ∨ k = 2 ∨ k = 3 ∨ k = 4 ∨ k = 5 := by omega
      rcases this with rfl | rfl | rfl | rfl | rfl | rfl <;> simp at h
    · intro h
      have : 2 ^ 6 ≤ 2 ^ k := Nat.pow_le_pow_right (by omega) h
      omega
  rw [failures_cons, List.any_cons]
  cases ha : a.healthy with
  | true => simp
  | false =>
    simp only [Bool.false_eq_true, if_false, Bool.false_or]
    simp only [big]
    unfold nextRamp
    cases hl : l.any Attempt.healthy with
    | true => rfl
    | false =>
      rw [failures_all hl]
      simp only [Bool.false_eq_true, if_false]
      by_cases h6 : 6 ≤ l.length
      · rw [if_pos h6, if_pos (by omega)]
      · rw [if_neg h6, if_neg (by omega)]

/-- **C106.** A node that is never reached is announced at most twice: as reconnecting, then as down. -/
theorem C106_quiet (l : List Attempt) (h : ∀ a ∈ l, a.connected = false) :
    (Collector.run l).published = [.reconnecting] ∨
    (Collector.run l).published = [.down, .reconnecting] := by
  have hh : ∀ l : List Attempt, (∀ a ∈ l, a.connected = false) → l.any Attempt.healthy = false := by
    intro l h
    rw [List.any_eq_false]
    intro a ha
    unfold Attempt.healthy
    rw [h a ha]
    simp
  have key : ∀ l : List Attempt, (∀ a ∈ l, a.connected = false) →
      ((Collector.run l).published = [.reconnecting]) ∨
      ((Collector.run l).published = [.down, .reconnecting] ∧ 7 ≤ l.length) := by
    intro l
    induction l with
    | nil => exact fun _ => .inl rfl
    | cons a l ih =>
      intro h
      have ih := ih (fun x hx => h x (List.mem_cons_of_mem _ hx))
      have hs := C106_down a l
      rw [hh _ h, failures_all (hh _ h)] at hs
      simp only [Bool.false_eq_true, if_false, List.length_cons] at hs
      have hr : (Collector.run (a :: l)).published = (Collector.run l).published ∨
          ∃ s, (Collector.run (a :: l)).published = s :: (Collector.run l).published := by
        rw [show Collector.run (a :: l) = (Collector.run l).round a from rfl]
        have hc := h a (by simp)
        have pc : ∀ (c : Collector) (s : NodeState), (c.publishChange s).published = c.published ∨
            ∃ s', (c.publishChange s).published = s' :: c.published := by
          intro c s
          unfold Collector.publishChange
          split
          · exact .inl rfl
          · exact .inr ⟨s, rfl⟩
        unfold Collector.round
        simp only [hc, Bool.false_eq_true, if_false]
        exact pc _ _
      by_cases h7 : 7 ≤ l.length + 1
      · rw [if_pos h7] at hs
        right
        refine ⟨?_, h7⟩
        rcases hr with hr | ⟨s, hr⟩
        · rcases ih with ih | ⟨ih, -⟩
          · rw [hr, ih] at hs; cases hs
          · rw [hr, ih]
        · rcases ih with ih | ⟨ih, h8⟩
          · rw [hr] at hs
            injection hs with hs
            rw [hr, ih, hs]
          · -- the state has not changed
            exfalso
            have : ((Collector.run l).round a).published = (Collector.run l).published := by
              have hd : (Collector.run l).delay ≥ 10000 := by
                rw [run_delay]
                unfold nextRamp
                rw [hh l (fun x hx => h x (List.mem_cons_of_mem _ hx))]
                simp only [Bool.false_eq_true, if_false]
                have : 2 ^ 7 ≤ 2 ^ l.length := Nat.pow_le_pow_right (by omega) h8
                omega
              have hhe : a.healthy = false := by
                unfold Attempt.healthy; rw [h a (by simp)]; rfl
              unfold Collector.round Collector.publishChange
              rw [h a (by simp), hhe]
              simp only [Bool.false_eq_true, if_false, ih, maxBackoff]
              rw [if_pos hd]
              rfl
            have hr : ((Collector.run l).round a).published = _ := hr
            rw [this, ih] at hr
            have := congrArg List.length hr
            simp at this
      · rw [if_neg h7] at hs
        left
        rcases ih with ih | ⟨-, h8⟩
        · rcases hr with hr | ⟨s, hr⟩
          · rw [hr, ih]
          · exfalso
            have hd : ¬ (Collector.run l).delay ≥ 10000 := by
              rw [run_delay]
              unfold nextRamp
              rw [hh l (fun x hx => h x (List.mem_cons_of_mem _ hx))]
              simp only [Bool.false_eq_true, if_false]
              have : 2 ^ l.length ≤ 2 ^ 5 := Nat.pow_le_pow_right (by omega) (by omega)
              omega
            have hhe : a.healthy = false := by
              unfold Attempt.healthy; rw [h a (by simp)]; rfl
            have : ((Collector.run l).round a).published = (Collector.run l).published := by
              unfold Collector.round Collector.publishChange
              rw [h a (by simp), hhe]
              simp only [Bool.false_eq_true, if_false, ih, maxBackoff]
              rw [if_neg hd]
              rfl
            have hr : ((Collector.run l).round a).published = _ := hr
            rw [this, ih] at hr
            have := congrArg List.length hr
            simp at this
        · omega
  rcases key l h with h | h
  · exact .inl h
  · exact .inr h.1

/-! ## Non-vacuity -/

/-- A vote for slot 12 that arrives 123 ms after the slot began, and one 9 slots early. -/
example : normalize (J := Nat × AttData) ⟨fun _ => none, some, fun _ => none, fun _ _ => 0⟩ 2
      (Node.Topic.name .attestation) (7, ⟨12, ⟨0, 0⟩, ⟨0, 0⟩, ⟨0, 0⟩⟩) 48123 ⟨0, 4000, 5⟩ =
      .ok ⟨2, .attestation, 12, 48123, 123, none, some 7, none⟩ ∧
    normalize (J := Nat × AttData) ⟨fun _ => none, some, fun _ => none, fun _ _ => 0⟩ 2
      (Node.Topic.name .attestation) (7, ⟨12, ⟨0, 0⟩, ⟨0, 0⟩, ⟨0, 0⟩⟩) 12000 ⟨0, 4000, 5⟩ =
      .error .implausibleSlot := by
  constructor <;> rfl

/-- Six and seven failed attempts from the start; six after a healthy session. -/
example : (Collector.run (List.replicate 6 ⟨false, 0⟩)).published = [.reconnecting] ∧
    (Collector.run (List.replicate 7 ⟨false, 0⟩)).published = [.down, .reconnecting] ∧
    (Collector.run (List.replicate 6 ⟨false, 0⟩ ++ [⟨true, 1⟩])).published =
      [.down, .reconnecting, .connected, .connected, .reconnecting] := by
  decide +kernel

end Verif.Monitor
