import Verif.Lemmas.SoloRun
import Mathlib.Data.Nat.Pairing
/-!
# C94: a network that is one node finalizes
-/
namespace Verif.Node
open Verif Verif.Db Verif.Sync Verif.Buffers Verif.Build

section
variable {c : VCtx} {t : Nat} {vals : List Validator}

/-- **C94, for 2 to 2048 validators.** A node runs all validators of its network, aggregates, and its
timers are on time. Then it misses no duty, and after any number `s` of slots its head is the block of
slot `s`, the block of slot `s - 2` is justified and that of slot `s - 3` is finalized.
Missing: one validator (false, `C94_single_false`), and more than 2048. -/
theorem C94_advances_partial (Q : Equipped c vals) (hv : 2 ≤ vals.length) (hv' : vals.length ≤ 2048)
    {s : Nat} {n : VNode} {l : List Signed} (h : Solo c t vals s n l) (hl : Clean c t vals l)
    (hs : s ≤ historicalRootsLimit) :
    headSlot n.actor.store = .ok s ∧ n.actor.store.mem.db.justified.slot = s - 2 ∧
      n.actor.store.mem.db.finalized.slot = s - 3 ∧ AllDone vals s l := by
  obtain ⟨root, anchor, f, top, ops, -, C, done⟩ := solo_calm Q hv hv' hl h hs (fun _ hx => hx)
  exact ⟨C.row.headSlot, C.row.just, C.row.fin, done⟩

/-- **C94, it never stops.** The next slot of such a run never fails, if the hash functions have no
collisions at all. -/
theorem C94_never_stops_partial (Q : Equipped c vals) (hv : 2 ≤ vals.length)
    (hv' : vals.length ≤ 2048) {s : Nat} {n : VNode} {l : List Signed} (h : Solo c t vals s n l)
    (hl : ∀ l, Clean c t vals l) (hs : s < historicalRootsLimit) {w : Times} (hw : OnTime t s w) :
    ∃ n' l', n.slot c s w = .ok (n', l') := by
  obtain ⟨root, anchor, f, top, ops, A, C, -⟩ := solo_calm Q hv hv' (hl l) h (by omega) (fun _ hx => hx)
  have hm : ∀ x ∈ l, x ∈ l ++ lineVotes c f s := fun x hx => List.mem_append_left _ hx
  have C1 := C.mono (fun _ h => MadeHeader.mono hm h) (fun _ h => VoteSigned.mono hm h)
  obtain ⟨a0, sync, σ1, sb, st, e1, e2⟩ := C1.slot Q (hl _).world
    (A.mono (fun _ h => MadeHeader.mono hm h)) (hl _).votes hv hv' (by omega) hw
    ⟨0, _, List.mem_append_right _ (lineVotes_mem (Q.all 0 (by omega)))⟩
  obtain ⟨σ', ops', g1, -⟩ := e2 _ (fun _ h => MadeHeader.mono (l' := l ++ lineVotes c f s ++
      [.block ((s + 1) % vals.length) (s + 1) (sb.block.root c.H) (some (sb, .ok ()))])
      (fun x hx => List.mem_append_left _ hx) h) (hl _).world
    (.inr ⟨sb, ⟨_, _, _, _, List.mem_append_right _ (List.mem_singleton_self _)⟩, rfl⟩)
  rw [g1] at e1
  exact ⟨_, _, e1⟩

end

namespace Witness
open Verif.Witness

/-- Timers a bit late. -/
def soloTimes (s : Nat) : Times :=
  ⟨4000 * s, 4000 * s + 850, 4000 * s + 1700, 4000 * s + 2400, 4000 * s + 3300⟩

theorem soloTimes_ok (s : Nat) : OnTime 0 s (soloTimes s) := by
  constructor <;> simp only [soloTimes] <;> omega

def soloRun (c : VCtx) (vals : List Validator) : Nat → P (VNode × List Signed)
  | 0 =>
    match Actor.init c.ctx (State.fromGenesis c.H 0 vals) (some []) with
    | .error e => .error e
    | .ok a => .ok (⟨a, Tracker.new true⟩, [])
  | s + 1 =>
    match soloRun c vals s with
    | .error e => .error e
    | .ok (n, l) =>
      match n.slot c s (soloTimes s) with
      | .error e => .error e
      | .ok (n', l') => .ok (n', l ++ l')

theorem solo_run {c : VCtx} {vals : List Validator} : ∀ {s : Nat} {n : VNode} {l : List Signed},
    soloRun c vals s = .ok (n, l) → Solo c 0 vals s n l
  | 0, n, l, h => by
    unfold soloRun at h
    split at h
    · cases h
    · cases h
      exact .start true ‹_›
  | s + 1, n, l, h => by
    unfold soloRun at h
    split at h
    · cases h
    next n0 l0 h0 =>
      split at h
      · cases h
      · cases h
        exact .slot (solo_run h0) (soloTimes_ok s) ‹_›

def madeList (l : List Signed) : List SignedBlock :=
  l.filterMap (fun x => match x with | .block _ _ _ (some (sb, _)) => some sb | _ => none)

def voteList (l : List Signed) : List AttData :=
  l.filterMap (fun x => match x with | .vote _ d _ => some d | _ => none)

/-- Checking a list of signed things. -/
theorem clean_of_list {c : VCtx} {vals : List Validator} {l : List Signed} (hH : c.H = wH)
    (h1 : ∀ a ∈ genesisHeader wH (State.fromGenesis wH 0 vals) ::
        (madeList l).map (fun sb => sb.block.header wH),
      ∀ b ∈ genesisHeader wH (State.fromGenesis wH 0 vals) ::
        (madeList l).map (fun sb => sb.block.header wH), wH.header a = wH.header b → a = b)
    (h2 : ∀ a ∈ genesisHeader wH (State.fromGenesis wH 0 vals) ::
        (madeList l).map (fun sb => sb.block.header wH), a.parentRoot ≤ a.slot)
    (h3 : ∀ d ∈ voteList l, ∀ d' ∈ voteList l, wH.attData d = wH.attData d' → d = d') :
    Clean c 0 vals l := by
  have hm : ∀ h, MadeHeader wH (State.fromGenesis wH 0 vals) l h →
      h ∈ genesisHeader wH (State.fromGenesis wH 0 vals) ::
        (madeList l).map (fun sb => sb.block.header wH) := by
    rintro h (rfl | ⟨sb, ⟨v, s, r, x, hx⟩, rfl⟩)
    · exact List.mem_cons_self
    · refine List.mem_cons_of_mem _ (List.mem_map.2 ⟨sb, ?_, rfl⟩)
      exact List.mem_filterMap.2 ⟨_, hx, rfl⟩
  have hd : ∀ d, VoteSigned l d → d ∈ voteList l := by
    rintro d ⟨v, sig, hx⟩
    exact List.mem_filterMap.2 ⟨_, hx, rfl⟩
  constructor
  · rw [hH]; exact fun h => Nat.succ_ne_zero _
  · rw [hH]; exact fun _ => Nat.one_ne_zero
  · rw [hH]; exact fun a b ha hb => h1 a (hm a ha) b (hm b hb)
  · rw [hH]; exact ⟨id, fun h hh => Nat.lt_succ_of_le (h2 h (hm h hh))⟩
  · rw [hH]; exact fun d d' h h' => h3 d (hd d h) d' (hd d' h')

def soloCtx (ids : List Nat) : VCtx := { dutyCtx with ids := ids }

theorem soloCtx_equipped {ids : List Nat} {vals : List Validator} {H : Hash}
    (hk : ∀ v < vals.length, ((vals[v]?).map (fun x => (x.attestationPubkey, x.proposalPubkey))) =
      some (v + 1, v + 1)) (hl : vals.length ≤ 3) (hi : ∀ v, v ∈ ids ↔ v < vals.length)
    (hn : ids.Nodup) : Equipped { soloCtx ids with H := H } vals := by
  have hkey : ∀ v x, vals[v]? = some x → x.attestationPubkey = v + 1 ∧ x.proposalPubkey = v + 1 ∧
      v < 3 := by
    intro v x hx
    have hlt := (List.getElem?_eq_some_iff.1 hx).1
    have := hk v hlt
    rw [hx] at this
    simp only [Option.map_some, Option.some.injEq, Prod.mk.injEq] at this
    exact ⟨this.1, this.2, by omega⟩
  have hdec : ∀ v : Nat, wX.decodeKey (v + 1) = some (v + 1) := fun v => by
    simp [wX]
  refine ⟨⟨wX_complete, wX_live, ?_, fun v => (hi v).1, hn, ?_, ?_, ?_, fun _ _ => .refl _, rfl, ?_⟩,
    fun v => (hi v).2⟩
  · intro v w x y k h1 h2 h3 h4
    rw [(hkey v x h1).1] at h3
    rw [(hkey w y h2).1] at h4
    have h3 := (hdec v).symm.trans h3
    have h4 := (hdec w).symm.trans h4
    have := (Option.some.inj h3).trans (Option.some.inj h4).symm
    omega
  · intro v hv d
    have hv := (hi v).1 hv
    obtain ⟨x, hx⟩ : ∃ x, vals[v]? = some x := ⟨_, List.getElem?_eq_getElem hv⟩
    refine ⟨d.slot, rfl, x, v + 1, d.slot, hx, by rw [(hkey v x hx).1]; exact hdec v, rfl, ?_⟩
    have := (hkey v x hx).2.2
    show decide _ = true
    simp
    omega
  · intro v hv s m raw sig val k h1 h2 h3 h4
    cases h1; cases h2
    rw [(hkey v val h3).2.1] at h4
    have h4 := Option.some.inj ((hdec v).symm.trans h4)
    have := (hkey v val h3).2.2
    show decide _ = true
    simp
    omega
  · intro v hv
    refine ⟨fun s m => ⟨s, s, rfl, rfl⟩, fun val hval => ⟨v + 1, ?_⟩⟩
    rw [(hkey v val hval).2.1]
    exact hdec v
  · exact (by decide : 0 < dutyCtx.config.maxAtts)

/-- Head, justified and finalized slot after a run. -/
def soloView (r : P (VNode × List Signed)) : Option (Option Nat × Nat × Nat) :=
  match r with
  | .ok (n, _) => some ((headSlot n.actor.store).toOption, n.actor.store.mem.db.justified.slot,
      n.actor.store.mem.db.finalized.slot)
  | .error _ => none

def soloLog (r : P (VNode × List Signed)) : List Signed :=
  match r with
  | .ok (_, l) => l
  | .error _ => []

theorem run_split {r : P (VNode × List Signed)} {x : Option Nat × Nat × Nat}
    (h : soloView r = some x) : ∃ n l, r = .ok (n, l) ∧ soloLog r = l ∧
      (headSlot n.actor.store).toOption = x.1 ∧ n.actor.store.mem.db.justified.slot = x.2.1 ∧
      n.actor.store.mem.db.finalized.slot = x.2.2 := by
  match r with
  | .ok (n, l) =>
    cases h
    exact ⟨n, l, rfl, rfl, rfl, rfl, rfl⟩
  | .error _ => cases h

/-- Three validators, whose keys the node lists in another order. -/
theorem soloThree_equipped : Equipped (soloCtx [2, 0, 1]) wVals :=
  soloCtx_equipped (ids := [2, 0, 1]) (vals := wVals) (H := wH) (by decide) (by decide)
    (by intro v; simp [wVals]; omega) (by decide)

theorem soloThree_run : soloView (soloRun (soloCtx [2, 0, 1]) wVals 5) = some (some 5, 3, 2) := by
  decide +kernel

theorem soloThree_clean : Clean (soloCtx [2, 0, 1]) 0 wVals
    (soloLog (soloRun (soloCtx [2, 0, 1]) wVals 5)) :=
  clean_of_list rfl (by decide +kernel) (by decide +kernel) (by decide +kernel)

/-- Three validators, five slots: the hypotheses of `C94_advances_partial` hold. -/
example : ∃ n l, Equipped (soloCtx [2, 0, 1]) wVals ∧ Solo (soloCtx [2, 0, 1]) 0 wVals 5 n l ∧
    Clean (soloCtx [2, 0, 1]) 0 wVals l ∧ headSlot n.actor.store = .ok 5 ∧
    n.actor.store.mem.db.justified.slot = 3 ∧ n.actor.store.mem.db.finalized.slot = 2 ∧
    AllDone wVals 5 l := by
  obtain ⟨n, l, h, hl, -⟩ := run_split soloThree_run
  have hc : Clean (soloCtx [2, 0, 1]) 0 wVals l := hl ▸ soloThree_clean
  exact ⟨n, l, soloThree_equipped, solo_run h, hc,
    C94_advances_partial soloThree_equipped (by decide) (by decide) (solo_run h) hc (by decide)⟩

/-- One validator. -/
def oneVal : List Validator := [⟨1, 1, 0⟩]

theorem soloOne_equipped : Equipped (soloCtx [0]) oneVal :=
  soloCtx_equipped (ids := [0]) (vals := oneVal) (H := wH) (by decide) (by decide)
    (by intro v; simp [oneVal]) (by decide)

theorem soloOne_run : soloView (soloRun (soloCtx [0]) oneVal 5) = some (some 5, 0, 0) := by
  decide +kernel

theorem soloOne_clean : Clean (soloCtx [0]) 0 oneVal (soloLog (soloRun (soloCtx [0]) oneVal 5)) :=
  clean_of_list rfl (by decide +kernel) (by decide +kernel) (by decide +kernel)

/-- **C94 is false for one validator.** The only vote of a slot is dropped by the aggregator, which
never makes a proof from a single signature (`resolve_job`), so no block carries votes. -/
theorem C94_single_false : ∃ (c : VCtx) (vals : List Validator) (n : VNode) (l : List Signed),
    vals.length = 1 ∧ Equipped c vals ∧ Solo c 0 vals 5 n l ∧ Clean c 0 vals l ∧
    headSlot n.actor.store = .ok 5 ∧ n.actor.store.mem.db.justified.slot = 0 ∧
    n.actor.store.mem.db.finalized.slot = 0 := by
  obtain ⟨n, l, h, hl, h1, h2, h3⟩ := run_split soloOne_run
  refine ⟨_, _, n, l, rfl, soloOne_equipped, solo_run h, hl ▸ soloOne_clean, ?_, h2, h3⟩
  cases e : headSlot n.actor.store with
  | error x => rw [e] at h1; cases h1
  | ok x => rw [e] at h1; cases h1; rfl

/-- A hash without collisions. -/
def idealHash : Hash where
  state _ := 1
  header h := Nat.pair h.slot (Nat.pair h.proposerIndex (Nat.pair h.parentRoot
    (Nat.pair h.stateRoot h.bodyRoot))) + 1
  body l := l.length
  attData d := Nat.pair d.slot (Nat.pair (Nat.pair d.head.root d.head.slot)
    (Nat.pair (Nat.pair d.target.root d.target.slot) (Nat.pair d.source.root d.source.slot)))

def idealCtx : VCtx := { soloCtx [2, 0, 1] with H := idealHash }

theorem ideal_clean (l : List Signed) : Clean idealCtx 0 wVals l where
  headerNZ _ := Nat.succ_ne_zero _
  stateNZ _ := Nat.one_ne_zero
  headers := by
    rintro ⟨⟩ ⟨⟩ - - h
    simp only [idealCtx, idealHash, Nat.add_right_cancel_iff, Nat.pair_eq_pair] at h
    simpa using h
  acyclic := ⟨id, fun h _ => Nat.lt_succ_of_le (((Nat.left_le_pair _ _).trans
    (Nat.right_le_pair _ _)).trans (Nat.right_le_pair _ _))⟩
  votes := by
    rintro ⟨a, ⟨⟩, ⟨⟩, ⟨⟩⟩ ⟨b, ⟨⟩, ⟨⟩, ⟨⟩⟩ - - h
    simp only [idealCtx, idealHash, Nat.pair_eq_pair] at h
    simpa [and_assoc] using h

theorem ideal_equipped : Equipped idealCtx wVals :=
  soloCtx_equipped (ids := [2, 0, 1]) (vals := wVals) (H := idealHash) (by decide) (by decide)
    (by intro v; simp [wVals]; omega) (by decide)

/-- Such a run goes on for as many slots as a state can count, finalizing all the way. -/
theorem C94_ideal_run : ∀ s, s ≤ historicalRootsLimit → ∃ n l, Solo idealCtx 0 wVals s n l ∧
    headSlot n.actor.store = .ok s ∧ n.actor.store.mem.db.justified.slot = s - 2 ∧
    n.actor.store.mem.db.finalized.slot = s - 3 ∧ AllDone wVals s l := by
  suffices h : ∀ s, s ≤ historicalRootsLimit → ∃ n l, Solo idealCtx 0 wVals s n l by
    intro s hs
    obtain ⟨n, l, h⟩ := h s hs
    exact ⟨n, l, h, C94_advances_partial ideal_equipped (by decide) (by decide) h (ideal_clean l) hs⟩
  intro s
  induction s with
  | zero =>
    intro _
    have : (soloRun idealCtx wVals 0).isOk = true := by decide +kernel
    cases e : soloRun idealCtx wVals 0 with
    | error x => rw [e] at this; cases this
    | ok x => exact ⟨_, _, solo_run e⟩
  | succ s ih =>
    intro hs
    obtain ⟨n, l, h⟩ := ih (by omega)
    obtain ⟨n', l', h'⟩ := C94_never_stops_partial ideal_equipped (by decide) (by decide) h
      ideal_clean hs (soloTimes_ok s)
    exact ⟨n', _, .slot h (soloTimes_ok s) h'⟩

end Witness
end Verif.Node
