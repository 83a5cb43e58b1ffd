import Verif.Lemmas.FleetSlot
/-!
# A slot of a network
-/
namespace Verif.Node
open Verif Verif.Db Verif.Sync Verif.Votes Verif.Buffers Verif.Build

theorem det {α : Type} {P : α → Prop} {x : Db.P α} {a : α} (h : x = .ok a)
    (k : ∃ b, x = .ok b ∧ P b) : P a := by
  obtain ⟨b, h1, h2⟩ := k
  rw [h] at h1
  cases h1
  exact h2

theorem det2 {α β : Type} {P : α → Prop} {x : Db.P (α × β)} {a : α} {b b' : β} (h : x = .ok (a, b))
    (k : ∃ a', x = .ok (a', b') ∧ P a') : b = b' ∧ P a := by
  obtain ⟨a', h1, h2⟩ := k
  rw [h] at h1
  cases h1
  exact ⟨rfl, h2⟩

section
variable {ι : Type} {X : Crypto} {H : Hash} {m : ι → Site} {t : Nat} {vals : List Validator}
  {K : Header → Prop} {D : AttData → Prop} {root : Root} {anchor : State} {f : Nat → Root} {s : Nat}
  {top : State}

theorem Site.reagg_or (q : Site) (σ : Store) (sb : SignedBlock) :
    (q.ctx X H).reagg σ sb = [] ∨ (q.ctx X H).reagg σ sb = reaggregate X H σ sb := by
  show (if _ then _ else _) = [] ∨ (if _ then _ else _) = _
  split
  · exact .inr rfl
  · exact .inl rfl

/-- The votes arrive. -/
theorem votes_arrive (M : Manned X H m vals)
    (W : World (envOf X H) t vals [] (State.fromGenesis H t vals) K)
    (hv' : vals.length ≤ 2048) (hs : s < 2 ^ 32) {e : ι → List Event}
    (he : VotesReach m (fun i => lineVotes ((m i).ctx X H) f s) e) {i : ι} {n : VNode}
    (V : Voted ((m i).ctx X H) t vals K D root anchor f s top 1
      (if (m i).aggregator then (m i).ids else []) n) :
    ∃ n', n.hear ((m i).ctx X H) (e i) = .ok n' ∧ ∃ vs,
      Voted ((m i).ctx X H) t vals K D root anchor f s top 1 vs n' ∧
      ((m i).aggregator = true → ∀ v, v ∈ vs ↔ v < vals.length) ∧
      ((m i).aggregator = false → vs = []) := by
  have hin : ∀ {j : ι} {v : Nat} {d : AttData} {sig : Nat},
      Signed.vote v d (some sig) ∈ lineVotes ((m j).ctx X H) f s →
      v ∈ (m j).ids ∧ d = lineVote f s ∧ ValidSig X H vals v (lineVote f s) sig := by
    intro j v d sig h
    obtain ⟨w, hw, e⟩ := List.mem_map.1 h
    simp only [Signed.vote.injEq] at e
    obtain ⟨rfl, rfl, e⟩ := e
    obtain ⟨sg, g1, g2⟩ := (M.able j).votes w hw (lineVote f s)
    rw [show (m j).sign w (lineVote f s) = some sg from g1] at e
    cases e
    exact ⟨hw, rfl, g2⟩
  obtain ⟨n', vs, h1, h2, h3⟩ := V.hear W hs hv' (agg := (m i).aggregator) (e := e i) (by
    intro x hx
    obtain ⟨j, v, d, sig, rfl, hl⟩ := he.sent i x hx
    obtain ⟨-, rfl, h⟩ := hin hl
    exact ⟨v, sig, rfl, h⟩)
  refine ⟨n', h1, vs, h2, fun ha v => ?_, fun ha => ?_⟩
  · rw [h3, ha]
    simp only [if_true, true_and]
    constructor
    · rintro (h | ⟨sig, h⟩)
      · exact (M.able i).mine v h
      · obtain ⟨j, v', d, sig', e', hl⟩ := he.sent i _ h
        simp only [Event.attestation.injEq] at e'
        obtain ⟨rfl, -⟩ := e'
        exact (M.able j).mine v (hin hl).1
    · intro h
      obtain ⟨j, hj⟩ := M.all v h
      by_cases hij : j = i
      · subst hij; exact .inl hj
      · obtain ⟨sg, g1, -⟩ := (M.able j).votes v hj (lineVote f s)
        refine .inr ⟨sg, he.arrive i ha j hij v _ sg ?_⟩
        show _ ∈ lineVotes ((m j).ctx X H) f s
        rw [← g1]
        exact lineVotes_mem (c := (m j).ctx X H) hj
  · rw [List.eq_nil_iff_forall_not_mem]
    intro v hv
    rw [h3, ha] at hv
    simp at hv

/-- The aggregators aggregate. -/
theorem session_done (M : Manned X H m vals)
    (W : World (envOf X H) t vals [] (State.fromGenesis H t vals) K)
    (A : AnchorOk H (State.fromGenesis H t vals) K root anchor)
    (hinj : ∀ d d', D d → D d' → H.attData d = H.attData d' → d = d') (hd : D (lineVote f s))
    (hv : 2 ≤ vals.length) (hv' : vals.length ≤ 2048) (hs : s ≤ historicalRootsLimit) {i : ι}
    {n : VNode} {vs : List Nat}
    (V : Voted ((m i).ctx X H) t vals K D root anchor f s top 2 vs n)
    (h1 : (m i).aggregator = true → ∀ v, v ∈ vs ↔ v < vals.length)
    (h2 : (m i).aggregator = false → vs = []) :
    ∃ n' o, (if (m i).aggregator then n.session ((m i).ctx X H) s = .ok (n', o)
        else n' = n ∧ o = []) ∧
      Tallied ((m i).ctx X H) t vals K D root anchor f s top 2 (f (s - 1)) ((m i).aggregator = true)
        n' ∧
      (∀ x ∈ o, x.1 = lineVote f s ∧ (∀ v, v < vals.length → In v x.2) ∧
        ValidAgg X H vals (lineVote f s) x.2) ∧
      ((m i).aggregator = true → ∃ a, o = [(lineVote f s, a)]) := by
  cases ha : (m i).aggregator with
  | true =>
    obtain ⟨n', a, g1, g2, g3, g4⟩ := V.session (M.able i) W A hinj hd hv hv' hs (h1 ha)
    refine ⟨n', [(lineVote f s, a)], ?_, by simpa using g2, ?_, fun _ => ⟨a, rfl⟩⟩
    · rw [if_pos rfl]; exact g1
    · intro x hx
      rw [List.mem_singleton] at hx
      subst hx
      exact ⟨rfl, g3, g4⟩
  | false =>
    obtain rfl := h2 ha
    refine ⟨n, [], by simp, by simpa using V.noSession, by simp, by simp⟩

/-- The aggregates arrive. -/
theorem aggregates_arrive (M : Manned X H m vals)
    (W : World (envOf X H) t vals [] (State.fromGenesis H t vals) K)
    (hs : s < 2 ^ 32) (hv : 0 < vals.length) {o : ι → List (AttData × Agg)} {e : ι → List Event}
    (he : AggregatesReach o e)
    (ho : ∀ i, ∀ x ∈ o i, x.1 = lineVote f s ∧ (∀ v, v < vals.length → In v x.2) ∧
      ValidAgg X H vals (lineVote f s) x.2)
    (ho' : ∀ i, (m i).aggregator = true → ∃ a, o i = [(lineVote f s, a)]) {safe : Root} {i : ι}
    {n : VNode}
    (V : Tallied ((m i).ctx X H) t vals K D root anchor f s top 2 safe ((m i).aggregator = true) n) :
    ∃ n', n.hear ((m i).ctx X H) (e i) = .ok n' ∧
      Tallied ((m i).ctx X H) t vals K D root anchor f s top 2 safe True n' := by
  obtain ⟨n', h1, h2⟩ := V.hear W hs hv (e := e i) (by
    intro x hx
    obtain ⟨j, d, a, rfl, hm⟩ := he.sent i x hx
    obtain ⟨rfl, g1, g2⟩ := ho j _ hm
    exact ⟨a, rfl, g1, g2⟩)
  refine ⟨n', h1, ?_⟩
  have : ((m i).aggregator = true ∨ e i ≠ []) = True := by
    refine eq_true ?_
    obtain ⟨j, hj⟩ := M.aggregates
    by_cases hij : j = i
    · subst hij; exact .inl hj
    · right
      obtain ⟨a, ha⟩ := ho' j hj
      have := he.arrive i j hij (lineVote f s) a (by rw [ha]; exact List.mem_singleton_self _)
      exact List.ne_nil_of_mem this
  rw [this] at h2
  exact h2

/-- The nodes at the end of slot `s`: `i0` made the next block. -/
structure Closed (X : Crypto) (H : Hash) (m : ι → Site) (t : Nat) (vals : List Validator)
    (K : Header → Prop) (D : AttData → Prop) (root : Root) (anchor : State) (f : Nat → Root) (s : Nat)
    (top : State) (i0 : ι) (sb : SignedBlock) (st : State) (N : ι → VNode) (l : ι → List Signed) :
    Prop where
  turn : (s + 1) % vals.length ∈ (m i0).ids
  next : NextBlock (envOf X H) f s top st sb
  known : K (sb.block.header H)
  log : l i0 = lineVotes ((m i0).ctx X H) f s ++
    [.block ((s + 1) % vals.length) (s + 1) (sb.block.root H) (some (sb, .ok ()))]
  logs : ∀ i, i ≠ i0 → l i = lineVotes ((m i).ctx X H) f s
  maker : Steady ((m i0).ctx X H) t vals K D root anchor (extend f s (sb.block.root H)) (s + 1) st
    (N i0)
  others : ∀ i, i ≠ i0 → Poised ((m i).ctx X H) t vals K D root anchor f s top (5 * s + 4) (N i)

theorem closes_closed (M : Manned X H m vals)
    (W : World (envOf X H) t vals [] (State.fromGenesis H t vals) K)
    (A : AnchorOk H (State.fromGenesis H t vals) K root anchor)
    (hinj : ∀ d d', D d → D d' → H.attData d = H.attData d' → d = d')
    (hv : 2 ≤ vals.length) (hv' : vals.length ≤ 2048) (hs : s + 1 ≤ historicalRootsLimit)
    {w : ι → Times} (hw : ∀ i, OnTime t s (w i)) {N N' : ι → VNode} {l : ι → List Signed}
    (V : ∀ i, Steady ((m i).ctx X H) t vals K D root anchor f s top (N i))
    (C : Closes X H m s w N N' l) (hD : ∀ i d, VoteSigned (l i) d → D d)
    (hK : ∀ i sb, BlockMade (l i) sb → K (sb.block.header H)) :
    ∃ i0 sb st, Closed X H m t vals K D root anchor f s top i0 sb st N' l := by
  have hl : historicalRootsLimit = 262144 := rfl
  cases C with
  | @mk N1 N2 N3 N4 N5 N6 _ l1 l3 l6 l7 o e e' c1 r1 c2 c3 c4 r2 c5 c6 c7 =>
  have V1 := fun i => det2 (c1 i) ((V i).attest (M.able i) W (by omega) hv' (by omega)
    (hw i).attestation _)
  have hl1 : l1 = fun i => lineVotes ((m i).ctx X H) f s := funext fun i => (V1 i).1
  subst hl1
  obtain ⟨j0, hj0⟩ := M.all 0 (by omega)
  have hd : D (lineVote f s) := by
    refine hD j0 _ ⟨0, (m j0).sign 0 (lineVote f s), ?_⟩
    simp only [List.mem_append]
    exact .inl (.inl (.inl (lineVotes_mem (c := (m j0).ctx X H) hj0)))
  have V2 := fun i => det (c2 i) (votes_arrive M W hv' (by omega) r1 (V1 i).2)
  have V3 : ∀ i, l3 i = [] ∧ ∃ vs, Voted ((m i).ctx X H) t vals K D root anchor f s top 2 vs (N3 i) ∧
      ((m i).aggregator = true → ∀ v, v ∈ vs ↔ v < vals.length) ∧
      ((m i).aggregator = false → vs = []) := by
    intro i
    obtain ⟨vs, h1, h2, h3⟩ := V2 i
    obtain ⟨h4, h5⟩ := det2 (c3 i) (h1.aggTick W (by omega) (hw i).aggregation _)
    exact ⟨h4, vs, h5, h2, h3⟩
  have V4 : ∀ i, Tallied ((m i).ctx X H) t vals K D root anchor f s top 2 (f (s - 1))
        ((m i).aggregator = true) (N4 i) ∧
      (∀ x ∈ o i, x.1 = lineVote f s ∧ (∀ v, v < vals.length → In v x.2) ∧
        ValidAgg X H vals (lineVote f s) x.2) ∧
      ((m i).aggregator = true → ∃ a, o i = [(lineVote f s, a)]) := by
    intro i
    obtain ⟨-, vs, h1, h2, h3⟩ := V3 i
    obtain ⟨n', o', g1, g2, g3, g4⟩ := session_done M W A hinj hd hv hv' (by omega) h1 h2 h3
    have := c4 i
    split at this
    next ha =>
      rw [if_pos ha, this] at g1
      cases g1
      exact ⟨g2, g3, g4⟩
    next ha =>
      rw [if_neg ha] at g1
      obtain ⟨rfl, rfl⟩ := g1
      rw [this.1, this.2]
      exact ⟨g2, g3, g4⟩
  have V5 := fun i => det (c5 i) (aggregates_arrive M W (by omega) (by omega) r2
    (fun i => (V4 i).2.1) (fun i => (V4 i).2.2) (V4 i).1)
  have V6 := fun i => det2 (c6 i) ((V5 i).safeTick W trivial (by omega) (hw i).safeTarget _)
  obtain ⟨i0, hi0⟩ := M.all ((s + 1) % vals.length) (Nat.mod_lt _ (by omega))
  have V7 := fun i (hi : i ≠ i0) => det2 (c7 i) ((V6 i).2.endOther (c := (m i).ctx X H) W A hinj hd (by omega) hs
    (fun h => hi (M.one _ _ _ h hi0)) (hw i).endOfSlot _)
  obtain ⟨sync, σ1, sb, st, g1, g2, g3⟩ := (V6 i0).2.endProposer (c := (m i0).ctx X H) (M.able i0) W A hinj hd (by omega) hv'
    hs hi0 (hw i0).endOfSlot (m i0).aggregator
  have c7' := c7 i0
  simp only at c7'
  rw [g2] at c7'
  have hk : K (sb.block.header H) := by
    split at c7'
    · cases c7'
    next r _ =>
      simp only [Except.ok.injEq, Prod.mk.injEq] at c7'
      refine hK i0 sb ⟨(s + 1) % vals.length, s + 1, sb.block.root H, r,
        List.mem_append_right _ ?_⟩
      rw [← c7'.2]
      exact List.mem_singleton_self _
  obtain ⟨σ', g4, g5⟩ := g3 hk
  rw [g4] at c7'
  simp only [Except.ok.injEq, Prod.mk.injEq] at c7'
  refine ⟨i0, sb, st, hi0, g1, hk, ?_, ?_, ?_, fun i hi => (V7 i hi).2⟩
  · simp only [(V3 i0).1, (V6 i0).1, ← c7'.2, List.append_nil]
  · intro i hi
    simp only [(V3 i).1, (V6 i).1, (V7 i hi).1, List.append_nil]
  · rw [← c7'.1]
    exact g5

/-- The next slot begins. -/
theorem Closed.pubTick
    (W : World (envOf X H) t vals [] (State.fromGenesis H t vals) K)
    (M : Manned X H m vals) (hv : 0 < vals.length) {i0 : ι} {sb : SignedBlock} {st : State}
    {N : ι → VNode} {l : ι → List Signed}
    (C : Closed X H m t vals K D root anchor f s top i0 sb st N l) {i : ι} {w : Times}
    (hw : OnTime t (s + 1) w) :
    ∃ n', (N i).tick ((m i).ctx X H) w.publication (m i).aggregator = .ok (n', []) ∧
      (i = i0 → Steady ((m i).ctx X H) t vals K D root anchor (extend f s (sb.block.root H)) (s + 1)
        st n') ∧
      (i ≠ i0 → Poised ((m i).ctx X H) t vals K D root anchor f s top (5 * (s + 1)) n') := by
  by_cases hi : i = i0
  · subst hi
    obtain ⟨n', h1, h2⟩ := C.maker.pubTick W hv hw.publication (m i).aggregator
    exact ⟨n', h1, fun _ => h2, fun h => absurd rfl h⟩
  · obtain ⟨n', h1, h2⟩ := (C.others i hi).pubTick W hv (fun h => hi (M.one _ _ _ h C.turn))
      hw.publication (m i).aggregator
    exact ⟨n', h1, fun h => absurd h hi, fun _ => h2⟩

/-- Its block arrives. -/
theorem Closed.blocks
    (W : World (envOf X H) t vals [] (State.fromGenesis H t vals) K)
    (A : AnchorOk H (State.fromGenesis H t vals) K root anchor) {i0 : ι} {sb : SignedBlock}
    {st : State} {N : ι → VNode} {l : ι → List Signed}
    (C : Closed X H m t vals K D root anchor f s top i0 sb st N l) {L : ι → List Signed}
    (hL : ∀ j v k r x, Signed.block v k r x ∈ L j → k ≤ s) {e : ι → List Event}
    (he : BlocksReach (s + 1) (fun i => L i ++ l i) e) {i : ι} {n : VNode}
    (h1 : i = i0 → Steady ((m i).ctx X H) t vals K D root anchor (extend f s (sb.block.root H)) (s + 1)
        st n)
    (h2 : i ≠ i0 → Poised ((m i).ctx X H) t vals K D root anchor f s top (5 * (s + 1)) n) :
    ∃ n', n.hear ((m i).ctx X H) (e i) = .ok n' ∧
      Steady ((m i).ctx X H) t vals K D root anchor (extend f s (sb.block.root H)) (s + 1) st n' := by
  have hev : ∀ x ∈ e i, x = .block sb := by
    intro x hx
    obtain ⟨j, v, r, sb', rfl, hm⟩ := he.sent i x hx
    rcases List.mem_append.1 hm with hm | hm
    · have := hL _ _ _ _ _ hm
      omega
    · have nov : ∀ j, Signed.block v (s + 1) r (some (sb', .ok ())) ∉ lineVotes ((m j).ctx X H) f s := by
        intro j h
        obtain ⟨_, -, h⟩ := List.mem_map.1 h
        cases h
      by_cases hj : j = i0
      · subst hj
        rw [C.log] at hm
        rcases List.mem_append.1 hm with hm | hm
        · exact absurd hm (nov j)
        · rw [List.mem_singleton] at hm
          simp only [Signed.block.injEq, Option.some.injEq, Prod.mk.injEq] at hm
          rw [hm.2.2.2.1]
      · rw [C.logs j hj] at hm
        exact absurd hm (nov j)
  by_cases hi : i = i0
  · exact (h1 hi).hear (c := (m i).ctx X H) W (m i).reagg_or C.next hev
  · refine (h2 hi).hear (c := (m i).ctx X H) W A (m i).reagg_or C.next C.known hev ?_
    refine List.ne_nil_of_mem (he.arrive i i0 (fun h => hi h.symm) ((s + 1) % vals.length)
      (sb.block.root H) sb (List.mem_append_right _ ?_))
    rw [C.log]
    exact List.mem_append_right _ (List.mem_singleton_self _)

theorem AllClean.world {L : ι → List Signed} (h : AllClean H t vals L) :
    World (envOf X H) t vals [] (State.fromGenesis H t vals)
      (fun x => ∃ i, MadeHeader H (State.fromGenesis H t vals) (L i) x) ∨ IsEmpty ι := by
  by_cases hi : IsEmpty ι
  · exact .inr hi
  · rw [not_isEmpty_iff] at hi
    obtain ⟨i⟩ := hi
    exact .inl
      { chain := .nil
        headerNZ := h.headerNZ
        stateNZ := h.stateNZ
        genesis := ⟨i, .inl rfl⟩
        old := fun b hb => by cases hb
        collisionFree := h.headers
        acyclic := h.acyclic }

/-- All runs are steady. -/
theorem fleet_steady (M : Manned X H m vals)
    (W : World (envOf X H) t vals [] (State.fromGenesis H t vals) K)
    (hinj : ∀ d d', D d → D d' → H.attData d = H.attData d' → d = d')
    (hv : 2 ≤ vals.length) (hv' : vals.length ≤ 2048) {N : ι → VNode} {L : ι → List Signed}
    (h : Fleet X H m t vals s N L) (hs : s ≤ historicalRootsLimit)
    (hD : ∀ i d, VoteSigned (L i) d → D d)
    (hK : ∀ i sb, BlockMade (L i) sb → K (sb.block.header H)) :
    ∃ root anchor f top, AnchorOk H (State.fromGenesis H t vals) K root anchor ∧
      (∀ i, Steady ((m i).ctx X H) t vals K D root anchor f s top (N i)) ∧
      (∀ j v k r x, Signed.block v k r x ∈ L j → k ≤ s) ∧ AllServed vals s L ∧
      (∀ i v d sig, Signed.vote v d sig ∈ L i → ∃ k < s, d = lineVote f k) := by
  induction h with
  | @start a w N l gate init time begins =>
    obtain ⟨j0, -⟩ := M.all 0 (by omega)
    obtain ⟨root, anchor, A, C0⟩ := calm_start (c := (m j0).ctx X H) D W (init j0)
    have ha : ∀ i, a i = a j0 := by
      intro i
      have h1 := init i
      have h2 := init j0
      unfold Actor.init at h1 h2
      have : (((m i).ctx X H).ctx).E = (((m j0).ctx X H).ctx).E := rfl
      rw [this] at h1
      rw [h1] at h2
      exact Except.ok.inj h2
    have V0 : ∀ i, Steady ((m i).ctx X H) t vals K D root anchor (fun _ => root) 0 anchor
        ⟨a i, Tracker.new (gate i)⟩ := by
      intro i
      refine ⟨⟨[], ?_⟩, ?_⟩
      · show Calm _ t vals K D root anchor _ 0 anchor [] (a i).store
        rw [ha i]
        exact ⟨C0.row, C0.time, C0.safe, C0.genesis, C0.idle⟩
      · have h1 := init i
        unfold Actor.init at h1
        split at h1
        · cases h1
        · rw [← Except.ok.inj h1]
    cases begins with
    | @mk N1 _ _ e b1 r1 b2 =>
    have V1 := fun i => det2 (b1 i) ((V0 i).pubTick W (by omega) (time i).publication _)
    have V2 : ∀ i, Steady ((m i).ctx X H) t vals K D root anchor (fun _ => root) 0 anchor (N i) := by
      intro i
      have h1 := b2 i
      have he : e i = [] := List.eq_nil_iff_forall_not_mem.2 (fun x hx => by
        obtain ⟨_, _, _, _, -, h⟩ := r1.sent i x hx
        cases h)
      rw [he] at h1
      rw [← Except.ok.inj h1]
      exact (V1 i).2
    refine ⟨root, anchor, _, _, A, V2, ?_, ⟨fun k hk => by omega, fun k h1 h2 => by omega⟩, ?_⟩
    · intro j v k r x hx
      rw [(V1 j).1] at hx
      cases hx
    · intro j v d sig hx
      rw [(V1 j).1] at hx
      cases hx
  | @next s w w' N N1 N2 L l l' h time ends time' begins ih =>
    obtain ⟨root, anchor, f, top, A, V, hL, hdone, hvotes⟩ := ih (by omega)
      (fun i d ⟨v, sig, h⟩ => hD i d ⟨v, sig, by simp [h]⟩)
      (fun i sb ⟨v, k, r, x, h⟩ => hK i sb ⟨v, k, r, x, by simp [h]⟩)
    obtain ⟨i0, sb, st, C⟩ := closes_closed M W A hinj hv hv' hs time V ends
      (fun i d ⟨v, sig, h⟩ => hD i d ⟨v, sig, by simp [h]⟩)
      (fun i sb ⟨v, k, r, x, h⟩ => hK i sb ⟨v, k, r, x, by simp [h]⟩)
    cases begins with
    | mk b1 r1 b2 =>
    have V1 := fun i => det2 (b1 i) (C.pubTick W M (by omega) (time' i))
    have V2 := fun i => det (b2 i) (C.blocks W A hL r1 (V1 i).2.1 (V1 i).2.2)
    refine ⟨root, anchor, _, _, A, V2, ?_, ⟨?_, ?_⟩, ?_⟩
    · intro j v k r x hx
      simp only [(V1 j).1, List.append_nil] at hx
      rcases List.mem_append.1 hx with hx | hx
      · have := hL _ _ _ _ _ hx
        omega
      · have nov : Signed.block v k r x ∉ lineVotes ((m j).ctx X H) f s := by
          intro h
          obtain ⟨_, -, h⟩ := List.mem_map.1 h
          cases h
        by_cases hj : j = i0
        · subst hj
          rw [C.log] at hx
          rcases List.mem_append.1 hx with hx | hx
          · exact absurd hx nov
          · rw [List.mem_singleton] at hx
            cases hx
            exact Nat.le_refl _
        · rw [C.logs j hj] at hx
          exact absurd hx nov
    · intro k hk v hvl
      rcases Nat.lt_or_ge k s with hlt | hge
      · obtain ⟨i, d, sig, h1, h2⟩ := hdone.1 k hlt v hvl
        exact ⟨i, d, sig, h1, by simp [h2]⟩
      · obtain rfl : k = s := by omega
        obtain ⟨i, hi⟩ := M.all v hvl
        obtain ⟨sig, h1, -⟩ := (M.able i).votes v hi (lineVote f k)
        refine ⟨i, lineVote f k, sig, rfl, ?_⟩
        have hm := lineVotes_mem (c := (m i).ctx X H) (f := f) (s := k) hi
        rw [h1] at hm
        refine List.mem_append_left _ (List.mem_append_right _ ?_)
        by_cases hj : i = i0
        · subst hj
          rw [C.log]
          exact List.mem_append_left _ hm
        · rw [C.logs i hj]
          exact hm
    · intro k hk hk'
      rcases Nat.lt_or_ge s k with hlt | hge
      · obtain rfl : k = s + 1 := by omega
        refine ⟨i0, sb.block.root H, sb, C.next.slot, List.mem_append_left _ (List.mem_append_right _ ?_)⟩
        rw [C.log]
        exact List.mem_append_right _ (List.mem_singleton_self _)
      · obtain ⟨i, r, sb, h1, h2⟩ := hdone.2 k hk hge
        exact ⟨i, r, sb, h1, by simp [h2]⟩
    · have old : ∀ k r, k ≤ s → lineVote f k = lineVote (extend f s r) k := by
        intro k r hk
        simp only [lineVote, extend]
        rw [if_neg (by omega), if_neg (by omega), if_neg (by omega)]
      have line : ∀ j v d sig, Signed.vote v d sig ∈ lineVotes ((m j).ctx X H) f s →
          ∃ k < s + 1, d = lineVote (extend f s (sb.block.root H)) k := by
        intro j v d sig h
        obtain ⟨_, -, h⟩ := List.mem_map.1 h
        cases h
        exact ⟨s, by omega, old s _ (Nat.le_refl _)⟩
      intro j v d sig hx
      simp only [(V1 j).1, List.append_nil] at hx
      rcases List.mem_append.1 hx with hx | hx
      · obtain ⟨k, hk, e⟩ := hvotes _ _ _ _ hx
        exact ⟨k, by omega, e.trans (old k _ (by omega))⟩
      · by_cases hj : j = i0
        · subst hj
          rw [C.log] at hx
          rcases List.mem_append.1 hx with hx | hx
          · exact line _ _ _ _ hx
          · rw [List.mem_singleton] at hx
            cases hx
        · rw [C.logs j hj] at hx
          exact line _ _ _ _ hx

end
end Verif.Node
