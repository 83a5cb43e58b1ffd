import Verif.Lemmas.FleetRun
import Verif.Props.C94_Solo
import Mathlib.Data.Fintype.Basic
/-!
# C98: a network whose messages arrive in time finalizes
-/
namespace Verif.Node
open Verif Verif.Db Verif.Sync Verif.Buffers Verif.Build

section
variable {ι : Type} {X : Crypto} {H : Hash} {m : ι → Site} {t : Nat} {vals : List Validator} {s : Nat}
  {N : ι → VNode} {L : ι → List Signed}

/-- **C98, for 2 to 2048 validators.** The validators are spread over any number of nodes, at least
one of which aggregates; the timers are on time and messages arrive within their interval, in any
order and possibly repeated. Then no duty is missed, and after any number `s` of slots the head of
every node is the same block of slot `s`, the same block of slot `s - 2` is justified, and the same
block of slot `s - 3` is finalized.
Missing: one validator (false, `C94_single_false`), and more than 2048. -/
theorem C98_advances_partial (M : Manned X H m vals) (hv : 2 ≤ vals.length)
    (hv' : vals.length ≤ 2048) (h : Fleet X H m t vals s N L) (hL : AllClean H t vals L)
    (hs : s ≤ historicalRootsLimit) :
    (∀ i, headSlot (N i).actor.store = .ok s ∧ (N i).actor.store.mem.db.justified.slot = s - 2 ∧
      (N i).actor.store.mem.db.finalized.slot = s - 3) ∧
    (∀ i j, (N i).actor.store.mem.db.head = (N j).actor.store.mem.db.head ∧
      (N i).actor.store.mem.db.justified = (N j).actor.store.mem.db.justified ∧
      (N i).actor.store.mem.db.finalized = (N j).actor.store.mem.db.finalized) ∧
    AllServed vals s L := by
  obtain ⟨j0, -⟩ := M.aggregates
  obtain ⟨root, anchor, f, top, A, V, -, done, -⟩ := fleet_steady M
    (hL.world.resolve_right (fun h => h.false j0))
    hL.votes hv hv' h hs (fun i d h => ⟨i, h⟩) (fun i sb h => ⟨i, .inr ⟨sb, h, rfl⟩⟩)
  have hj : ∀ i, (N i).actor.store.mem.db.head = f s ∧
      (N i).actor.store.mem.db.justified = ⟨f (s - 2), s - 2⟩ ∧
      (N i).actor.store.mem.db.finalized = ⟨f (s - 3), s - 3⟩ := by
    intro i
    obtain ⟨ops, C⟩ := (V i).calm
    obtain ⟨sf, f1, f2⟩ := C.row.inv.cp.fin
    refine ⟨C.row.head, ?_, ?_⟩
    · rw [← C.row.justRoot, ← C.row.just]
    · have := (C.row.root_eq f1).2
      rw [f2, C.row.fin] at this
      rw [← this, ← C.row.fin]
  refine ⟨fun i => ?_, fun i j => ?_, done⟩
  · obtain ⟨ops, C⟩ := (V i).calm
    exact ⟨C.row.headSlot, C.row.just, C.row.fin⟩
  · rw [(hj i).1, (hj i).2.1, (hj i).2.2, (hj j).1, (hj j).2.1, (hj j).2.2]
    exact ⟨rfl, rfl, rfl⟩

theorem Ideal.world (h : Ideal H) :
    World (envOf X H) t vals [] (State.fromGenesis H t vals) (fun _ => True) :=
  { chain := .nil
    headerNZ := h.headerNZ
    stateNZ := h.stateNZ
    genesis := trivial
    old := fun b hb => by cases hb
    collisionFree := fun a b _ _ => h.headers a b
    acyclic := by
      obtain ⟨rank, hr⟩ := h.acyclic
      exact ⟨rank, fun x _ => hr x⟩ }

/-- **C98, it never stops.** No node of such a network ever fails, whatever the order in which the
messages arrive, if the hash functions have no collisions. -/
theorem C98_never_stops_partial (M : Manned X H m vals) (hH : Ideal H) (hv : 2 ≤ vals.length)
    (hv' : vals.length ≤ 2048) (h : Fleet X H m t vals s N L) (hs : s < historicalRootsLimit)
    {w w' : ι → Times} (hw : ∀ i, OnTime t s (w i)) (hw' : ∀ i, OnTime t (s + 1) (w' i)) :
    Continues X H m s w w' N L := by
  have hl : historicalRootsLimit = 262144 := rfl
  have W : World (envOf X H) t vals [] (State.fromGenesis H t vals) (fun _ => True) := hH.world
  have hinj : ∀ d d', True → True → H.attData d = H.attData d' → d = d' := fun d d' _ _ => hH.votes d d'
  obtain ⟨root, anchor, f, top, A, V, hL, -, -⟩ := fleet_steady (D := fun _ => True) M W hinj hv hv' h
    (by omega) (fun _ _ _ => trivial) (fun _ _ _ => trivial)
  choose N1 h1 h1' using fun i => (V i).attest (M.able i) W (by omega) hv' (by omega)
    (hw i).attestation (m i).aggregator
  refine ⟨N1, _, h1, fun e he => ?_⟩
  choose N2 h2 vs h2a h2b h2c using fun i => votes_arrive M W hv' (by omega) he (h1' i)
  choose N3 h3 h3' using fun i => (h2a i).aggTick W (by omega) (hw i).aggregation (m i).aggregator
  choose N4 o h4 h4a h4b h4c using fun i => session_done M W A hinj trivial hv hv' (by omega) (h3' i)
    (h2b i) (h2c i)
  refine ⟨N2, N3, _, N4, o, h2, h3, h4, fun e' he' => ?_⟩
  choose N5 h5 h5' using fun i => aggregates_arrive M W (by omega) (by omega) he' h4b h4c (h4a i)
  choose N6 h6 h6' using fun i => (h5' i).safeTick W trivial (by omega) (hw i).safeTarget
    (m i).aggregator
  obtain ⟨i0, hi0⟩ := M.all ((s + 1) % vals.length) (Nat.mod_lt _ (by omega))
  obtain ⟨sync, σ1, sb, st, g1, g2, g3⟩ := (h6' i0).endProposer (c := (m i0).ctx X H) (M.able i0) W A
    hinj trivial (by omega) hv' hs hi0 (hw i0).endOfSlot (m i0).aggregator
  obtain ⟨σ', g4, g5⟩ := g3 trivial
  rw [g4] at g2
  have h7 : ∀ i, ∃ n7 l7, (N6 i).tick ((m i).ctx X H) (w i).endOfSlot (m i).aggregator = .ok (n7, l7) ∧
      (i = i0 → l7 = [.block ((s + 1) % vals.length) (s + 1) (sb.block.root H) (some (sb, .ok ()))] ∧
        Steady ((m i).ctx X H) t vals (fun _ => True) (fun _ => True) root anchor
          (extend f s (sb.block.root H)) (s + 1) st n7) ∧
      (i ≠ i0 → l7 = [] ∧ Poised ((m i).ctx X H) t vals (fun _ => True) (fun _ => True) root anchor f s
        top (5 * s + 4) n7) := by
    intro i
    by_cases hi : i = i0
    · subst hi
      exact ⟨_, _, g2, fun _ => ⟨rfl, g5⟩, fun h => absurd rfl h⟩
    · obtain ⟨n', k1, k2⟩ := (h6' i).endOther (c := (m i).ctx X H) W A hinj trivial (by omega) hs
        (fun h => hi (M.one _ _ _ h hi0)) (hw i).endOfSlot (m i).aggregator
      exact ⟨n', [], k1, fun h => absurd h hi, fun _ => ⟨rfl, k2⟩⟩
  choose N7 l7 h7 h7a h7b using h7
  have C : Closed X H m t vals (fun _ => True) (fun _ => True) root anchor f s top i0 sb st N7
      (fun i => lineVotes ((m i).ctx X H) f s ++ [] ++ [] ++ l7 i) :=
    { turn := hi0
      next := g1
      known := trivial
      log := by rw [(h7a i0 rfl).1, List.append_nil, List.append_nil]
      logs := fun i hi => by rw [(h7b i hi).1, List.append_nil, List.append_nil, List.append_nil]
      maker := (h7a i0 rfl).2
      others := fun i hi => (h7b i hi).2 }
  choose N8 h8 h8a h8b using fun i => C.pubTick W M (by omega) (i := i) (hw' i)
  refine ⟨N5, N6, _, N7, l7, N8, _, h5, h6, h7, h8, fun e'' he'' => ?_⟩
  choose N9 h9 h9' using fun i => C.blocks W A hL he'' (h8a i) (h8b i)
  exact ⟨N9, h9⟩

/-- With finitely many nodes there is a next slot. -/
theorem Continues.next [Fintype ι] (h : Fleet X H m t vals s N L) {w w' : ι → Times}
    (hw : ∀ i, OnTime t s (w i)) (hw' : ∀ i, OnTime t (s + 1) (w' i))
    (C : Continues X H m s w w' N L) : ∃ N' L', Fleet X H m t vals (s + 1) N' L' := by
  have all : ∀ j : ι, j ∈ (Finset.univ : Finset ι).toList := fun j => by simp
  obtain ⟨N1, l1, h1, C⟩ := C
  have hr : VotesReach m l1 (fun i => Finset.univ.toList.flatMap (fun j => (l1 j).filterMap
      (fun x => match x with
        | .vote v d (some sig) => some (.attestation v d sig (m i).aggregator)
        | _ => none))) := by
    constructor
    · intro i x hx
      obtain ⟨j, -, hx⟩ := List.mem_flatMap.1 hx
      obtain ⟨y, hy, hx⟩ := List.mem_filterMap.1 hx
      split at hx
      next v d sig =>
        cases hx
        exact ⟨j, v, d, sig, rfl, hy⟩
      · cases hx
    · intro i ha j _ v d sig hm
      exact List.mem_flatMap.2 ⟨j, all j, List.mem_filterMap.2 ⟨_, hm, by simp only [ha]⟩⟩
  obtain ⟨N2, N3, l3, N4, o, h2, h3, h4, C⟩ := C _ hr
  have hr' : AggregatesReach o (fun _ => Finset.univ.toList.flatMap (fun j => (o j).map
      (fun x => .aggregate x.1 x.2))) := by
    constructor
    · intro i x hx
      obtain ⟨j, -, hx⟩ := List.mem_flatMap.1 hx
      obtain ⟨y, hy, rfl⟩ := List.mem_map.1 hx
      exact ⟨j, y.1, y.2, rfl, hy⟩
    · intro i j _ d a hm
      exact List.mem_flatMap.2 ⟨j, all j, List.mem_map.2 ⟨_, hm, rfl⟩⟩
  obtain ⟨N5, N6, l6, N7, l7, N8, l8, h5, h6, h7, h8, C⟩ := C _ hr'
  have hr'' : BlocksReach (s + 1) (fun i => L i ++ (l1 i ++ l3 i ++ l6 i ++ l7 i))
      (fun _ => Finset.univ.toList.flatMap (fun j => (L j ++ (l1 j ++ l3 j ++ l6 j ++ l7 j)).filterMap
        (fun x => match x with
          | .block _ k _ (some (sb, .ok ())) => if k = s + 1 then some (.block sb) else none
          | _ => none))) := by
    constructor
    · intro i x hx
      obtain ⟨j, -, hx⟩ := List.mem_flatMap.1 hx
      obtain ⟨y, hy, hx⟩ := List.mem_filterMap.1 hx
      split at hx
      next v k r sb =>
        split at hx
        next hk =>
          subst hk
          cases hx
          exact ⟨j, v, r, sb, rfl, hy⟩
        · cases hx
      · cases hx
    · intro i j _ v r sb hm
      exact List.mem_flatMap.2 ⟨j, all j, List.mem_filterMap.2 ⟨_, hm, by simp⟩⟩
  obtain ⟨N9, h9⟩ := C _ hr''
  exact ⟨N9, _, .next h hw (.mk h1 hr h2 h3 h4 hr' h5 h6 h7) hw' (.mk h8 hr'' h9)⟩

end

namespace Witness
open Verif.Witness

/-- Three nodes with a validator each; two of them aggregate. -/
def wSites : Fin 3 → Site := fun i =>
  { order := idealCtx.order
    recovers := fun _ _ => true
    ord := idealCtx.ord
    config := idealCtx.config
    ids := [i.val]
    sign := idealCtx.sign
    signBlock := idealCtx.signBlock
    aggregator := decide (i ≠ 2) }

theorem wSites_manned : Manned idealCtx.X idealHash wSites wVals where
  able i := by
    have Q := ideal_equipped
    have hi : ∀ v ∈ [i.val], v ∈ idealCtx.ids := by
      intro v hv
      rw [List.mem_singleton] at hv
      subst hv
      exact Q.all _ i.isLt
    exact ⟨Q.complete, Q.live, Q.keys, fun v hv => Q.mine v (hi v hv), List.nodup_singleton _,
      fun v hv => Q.votes v (hi v hv), fun v hv => Q.signs v (hi v hv), fun v hv => Q.can v (hi v hv),
      Q.ord, Q.merges, Q.room⟩
  all v hv := ⟨⟨v, hv⟩, List.mem_singleton_self _⟩
  one v i j hi hj := by
    have hi : v ∈ [i.val] := hi
    have hj : v ∈ [j.val] := hj
    rw [List.mem_singleton] at hi hj
    exact Fin.ext (hi.symm.trans hj)
  aggregates := ⟨0, rfl⟩

theorem ideal_ideal : Ideal idealHash where
  headerNZ := (ideal_clean []).headerNZ
  stateNZ := (ideal_clean []).stateNZ
  headers := by
    rintro ⟨⟩ ⟨⟩ h
    simp only [idealHash, Nat.add_right_cancel_iff, Nat.pair_eq_pair] at h
    simpa using h
  acyclic := ⟨id, fun h => Nat.lt_succ_of_le (((Nat.left_le_pair _ _).trans
    (Nat.right_le_pair _ _)).trans (Nat.right_le_pair _ _))⟩
  votes := by
    rintro ⟨a, ⟨⟩, ⟨⟩, ⟨⟩⟩ ⟨b, ⟨⟩, ⟨⟩, ⟨⟩⟩ h
    simp only [idealHash, Nat.pair_eq_pair] at h
    simpa [and_assoc] using h

theorem Ideal.clean {ι : Type} {H : Hash} {t : Nat} {vals : List Validator} (h : Ideal H)
    (L : ι → List Signed) : AllClean H t vals L where
  headerNZ := h.headerNZ
  stateNZ := h.stateNZ
  headers a b _ _ := h.headers a b
  acyclic := by
    obtain ⟨rank, hr⟩ := h.acyclic
    exact ⟨rank, fun x _ => hr x⟩
  votes d d' _ _ := h.votes d d'

/-- A network of three nodes finalizes for as many slots as a state can count. -/
theorem C98_ideal_run : ∀ s, s ≤ historicalRootsLimit →
    ∃ N L, Fleet idealCtx.X idealHash wSites 0 wVals s N L ∧
      (∀ i, headSlot (N i).actor.store = .ok s ∧ (N i).actor.store.mem.db.justified.slot = s - 2 ∧
        (N i).actor.store.mem.db.finalized.slot = s - 3) ∧ AllServed wVals s L := by
  suffices h : ∀ s, s ≤ historicalRootsLimit →
      ∃ N L, Fleet idealCtx.X idealHash wSites 0 wVals s N L by
    intro s hs
    obtain ⟨N, L, h⟩ := h s hs
    obtain ⟨h1, -, h3⟩ := C98_advances_partial wSites_manned (by decide) (by decide) h
      (Ideal.clean ideal_ideal L) hs
    exact ⟨N, L, h, h1, h3⟩
  intro s
  induction s with
  | zero =>
    intro _
    have h0 : ∀ i : Fin 3, ∃ a n,
        Actor.init ((wSites i).ctx idealCtx.X idealHash).ctx (State.fromGenesis idealHash 0 wVals)
          (some []) = .ok a ∧
        (VNode.mk a (Tracker.new true)).tick ((wSites i).ctx idealCtx.X idealHash)
          (soloTimes 0).publication (wSites i).aggregator = .ok (n, []) := by
      intro i
      have : ∀ i : Fin 3, (match Actor.init ((wSites i).ctx idealCtx.X idealHash).ctx
          (State.fromGenesis idealHash 0 wVals) (some []) with
        | .error _ => false
        | .ok a => match (VNode.mk a (Tracker.new true)).tick ((wSites i).ctx idealCtx.X idealHash)
            (soloTimes 0).publication (wSites i).aggregator with
          | .ok (_, []) => true
          | _ => false) = true := by decide +kernel
      have := this i
      split at this
      · cases this
      · rename_i a ha
        split at this
        · rename_i n hn
          exact ⟨a, n, ha, hn⟩
        · cases this
    choose a n h1 h2 using h0
    refine ⟨n, fun _ => [], .start (fun _ => true) h1 (fun _ => soloTimes_ok 0)
      (.mk (e := fun _ => []) h2 ⟨by simp, by simp⟩ (fun _ => rfl))⟩
  | succ s ih =>
    intro hs
    obtain ⟨N, L, h⟩ := ih (by omega)
    exact (C98_never_stops_partial wSites_manned ideal_ideal (by decide) (by decide) h hs
      (fun _ => soloTimes_ok s) (fun _ => soloTimes_ok (s + 1))).next h (fun _ => soloTimes_ok s)
      (fun _ => soloTimes_ok (s + 1))

end Witness
end Verif.Node
