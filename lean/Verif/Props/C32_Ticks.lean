import Verif.Lemmas.StoreFrame
import Verif.Spec.DbWitness
/-!
# C32: the store clock
-/
namespace Verif.Node
open Verif Verif.Db

/-- What the protocol asks for at interval `i` of the timeline, `target` being the current one: move
the clock to `i`; refresh the safe target at the fourth interval of a slot; promote pending votes
and choose a head at the fifth, and also at the first if we are about to propose now. -/
def intervalSpec (H : Hash) (target : Nat) (proposal : Bool) (s : Store) (i : Nat) : P Store :=
  if i % 5 = 3 then updateSafeTarget (s.setTime i)
  else if i % 5 = 4 ∨ (i % 5 = 0 ∧ proposal = true ∧ i = target) then acceptNew H (s.setTime i)
  else .ok (s.setTime i)

theorem duty_eq (H : Hash) (s : Store) (target i : Nat) (p : Bool) :
    (match Interval.ofCount (s.setTime i).mem.db.time with
      | none => .error 109
      | some iv => duty H (s.setTime i) iv (p && decide ((s.setTime i).mem.db.time = target)) : P Store)
      = intervalSpec H target p s i := by
  have ht : (s.setTime i).mem.db.time = i := rfl
  rw [ht]
  unfold intervalSpec Interval.ofCount
  have h5 : i % intervalsPerSlot = i % 5 := rfl
  rw [h5]
  have : i % 5 = 0 ∨ i % 5 = 1 ∨ i % 5 = 2 ∨ i % 5 = 3 ∨ i % 5 = 4 := by omega
  rcases this with h | h | h | h | h <;> rw [h] <;> simp [duty]

theorem intervalSpec_time {H : Hash} {target i : Nat} {p : Bool} {s s' : Store}
    (h : intervalSpec H target p s i = .ok s') :
    s'.mem.db.time = i ∧ s'.genesisTime = s.genesisTime := by
  unfold intervalSpec at h
  split at h
  · exact updateSafeTarget_time h
  · split at h
    · exact acceptNew_time h
    · cases h; exact ⟨rfl, rfl⟩

theorem tickLoop_eq (H : Hash) (target : Nat) (p : Bool) (n : Nat) : ∀ (s : Store),
    tickLoop H target p n s
      = (List.range' (s.mem.db.time + 1) n).foldlM (intervalSpec H target p) s := by
  induction n with
  | zero => intro s; rfl
  | succ n ih =>
    intro s
    rw [List.range'_succ, List.foldlM_cons]
    have hd := duty_eq H s target (s.mem.db.time + 1) p
    unfold tickLoop
    simp only
    split at hd
    next hn => rw [hn, ← hd]; rfl
    next iv hi =>
      rw [hi]; simp only; rw [hd]
      cases hs : intervalSpec H target p s (s.mem.db.time + 1) with
      | error e => rfl
      | ok s' =>
        simp only
        rw [ih, (intervalSpec_time hs).1]
        rfl

theorem foldlM_time {H : Hash} {target : Nat} {p : Bool} (n : Nat) : ∀ (a : Nat) (s s' : Store),
    s.mem.db.time = a →
    (List.range' (a + 1) n).foldlM (intervalSpec H target p) s = Except.ok s' →
    s'.mem.db.time = a + n ∧ s'.genesisTime = s.genesisTime := by
  induction n with
  | zero => intro a s s' ha h; cases h; exact ⟨ha, rfl⟩
  | succ n ih =>
    intro a s s' ha h
    rw [List.range'_succ, List.foldlM_cons] at h
    cases hs : intervalSpec H target p s (a + 1) with
    | error e => rw [hs] at h; cases h
    | ok s1 =>
      rw [hs] at h
      obtain ⟨h1, h2⟩ := intervalSpec_time hs
      obtain ⟨h3, h4⟩ := ih (a + 1) s1 s' h1 h
      exact ⟨by omega, h4.trans h2⟩

/-- **C32.** A tick at wall-clock interval `T` works through the intervals after the store's time up
to `T`, in order and once each; when more than one slot behind, it skips ahead so that exactly the
last five are processed. (`T` is the number of whole 800 ms intervals since genesis.) -/
theorem C32_intervals_once (H : Hash) (s : Store) (ts : Nat) (p : Bool) :
    onTick H s ts p =
      (List.range' (max s.mem.db.time ((ts - s.genesisTime * 1000) / 800 - 5) + 1)
        ((ts - s.genesisTime * 1000) / 800
          - max s.mem.db.time ((ts - s.genesisTime * 1000) / 800 - 5))).foldlM
        (intervalSpec H ((ts - s.genesisTime * 1000) / 800) p) s := by
  unfold onTick
  have hT : tickTarget s.genesisTime ts = (ts - s.genesisTime * 1000) / 800 := rfl
  rw [hT]
  generalize (ts - s.genesisTime * 1000) / 800 = T
  simp only
  by_cases hb : T - s.mem.db.time > intervalsPerSlot
  · rw [if_pos hb, tickLoop_eq]
    have hb : T - s.mem.db.time > 5 := hb
    have ht : (s.setTime (T - intervalsPerSlot)).mem.db.time = T - 5 := rfl
    rw [ht, Nat.max_eq_right (by omega)]
    have h5 : T - (T - 5) = 4 + 1 := by omega
    rw [h5, List.range'_succ, List.foldlM_cons, List.foldlM_cons]
    rfl
  · rw [if_neg hb, tickLoop_eq]
    have hb : ¬ T - s.mem.db.time > 5 := hb
    rw [Nat.max_eq_left (by omega)]

/-- **C32.** A tick never moves the clock backwards: it ends at the wall-clock interval, or stays
where it was if the wall clock is behind. -/
theorem C32_clock {H : Hash} {s s' : Store} {ts : Nat} {p : Bool} (h : onTick H s ts p = .ok s') :
    s'.mem.db.time = max s.mem.db.time ((ts - s.genesisTime * 1000) / 800) ∧
      s'.genesisTime = s.genesisTime := by
  have hT : tickTarget s.genesisTime ts = (ts - s.genesisTime * 1000) / 800 := rfl
  unfold onTick at h
  rw [hT] at h
  generalize (ts - s.genesisTime * 1000) / 800 = T at h ⊢
  simp only at h
  rw [tickLoop_eq] at h
  split at h
  next hb =>
    have hb : T - s.mem.db.time > 5 := hb
    obtain ⟨h1, h2⟩ := foldlM_time _ (T - 5) _ _ rfl h
    have h5 : (s.setTime (T - intervalsPerSlot)).mem.db.time = T - 5 := rfl
    rw [h5] at h1
    exact ⟨by omega, h2⟩
  next hb =>
    obtain ⟨h1, h2⟩ := foldlM_time _ s.mem.db.time _ _ rfl h
    exact ⟨by omega, h2⟩

/-- **C32.** A tick that is not ahead of the store's clock does nothing. -/
theorem C32_late_tick_noop (H : Hash) (s : Store) (ts : Nat) (p : Bool)
    (h : (ts - s.genesisTime * 1000) / 800 ≤ s.mem.db.time) : onTick H s ts p = .ok s := by
  rw [C32_intervals_once]
  have : (ts - s.genesisTime * 1000) / 800
      - max s.mem.db.time ((ts - s.genesisTime * 1000) / 800 - 5) = 0 := by omega
  rw [this]
  rfl

/-- **C32.** Repeating a tick, or one with an older timestamp, does nothing. -/
theorem C32_repeat_noop {H : Hash} {s s' : Store} {ts ts' : Nat} {p p' : Bool}
    (h : onTick H s ts p = .ok s') (hle : ts' ≤ ts) : onTick H s' ts' p' = .ok s' := by
  obtain ⟨h1, h2⟩ := C32_clock h
  refine C32_late_tick_noop H s' ts' p' ?_
  rw [h1, h2]
  have : (ts' - s.genesisTime * 1000) / 800 ≤ (ts - s.genesisTime * 1000) / 800 :=
    Nat.div_le_div_right (by omega)
  omega

/-- **C32.** Over any sequence of timestamps and flags the clock is the furthest interval seen. -/
theorem C32_any_sequence {H : Hash} (l : List (Nat × Bool)) : ∀ {s s' : Store},
    l.foldlM (fun s x => onTick H s x.1 x.2) s = Except.ok s' →
    s'.mem.db.time = (l.map (fun x => (x.1 - s.genesisTime * 1000) / 800)).foldl max s.mem.db.time
    := by
  induction l with
  | nil => intro s s' h; cases h; rfl
  | cons x l ih =>
    intro s s' h
    rw [List.foldlM_cons] at h
    cases hs : onTick H s x.1 x.2 with
    | error e => rw [hs] at h; cases h
    | ok s1 =>
      rw [hs] at h
      obtain ⟨h1, h2⟩ := C32_clock hs
      rw [ih h, h1, h2]
      rfl

/-- A fresh node at genesis. -/
def wStore : Store :=
  { mem := Db.Witness.m0, fc := ⟨[], []⟩, newP := Buffers.PayloadBuffer.new 64
    knownP := Buffers.PayloadBuffer.new 512, gossip := Buffers.GossipBuffer.new 2048
    genesisTime := 0 }

/-- Non-vacuity: one tick three intervals ahead succeeds, and one thirteen ahead lands on 13. -/
example : ((onTick Verif.Witness.wH wStore 2400 false).toOption.map (·.mem.db.time)) = some 3 ∧
    ((onTick Verif.Witness.wH wStore 10400 true).toOption.map (·.mem.db.time)) = some 13 := by
  decide +kernel

end Verif.Node
