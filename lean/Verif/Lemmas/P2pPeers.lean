import Verif.Props.C72_Forward
/-!
# Which peers are asked for one root
-/
namespace Verif.Net
open Verif

theorem fetchFromPeer_pend (s : Server) (id : ReqId) (r : Root) (pick : Nat) (sent : Bool) :
    let res := fetchFromPeer s id r pick sent
    (∀ r', r' ≠ r → res.2.1.pending.get? r' = s.pending.get? r') ∧
    ((res.1 = false ∧ res.2.2 = [] ∧ (s.pending.get? r = none → res.2.1.pending.get? r = none)) ∨
     (∃ p, res.1 = true ∧ res.2.2 = [.sendRoot id p r] ∧
        (s.pending.get? r = none → res.2.1.pending.get? r = some ⟨1, []⟩) ∧
        ∀ q, s.pending.get? r = some q →
          (p ∉ q.failed ∧ res.2.1.pending.get? r = some q) ∨
          ((∀ c ∈ s.connected, c ∈ q.failed) ∧
            res.2.1.pending.get? r = some { q with failed := [] }))) := by
  intro res
  have hres : res = fetchFromPeer s id r pick sent := rfl
  clear_value res
  unfold fetchFromPeer at hres
  by_cases h0 : s.connected.isEmpty = true
  · rw [if_pos h0] at hres; subst hres
    exact ⟨fun _ _ => rfl, .inl ⟨rfl, rfl, fun h => h⟩⟩
  rw [if_neg h0] at hres
  dsimp only at hres
  generalize hpool : s.connected.filter
    (fun p => decide (p ∉ ((s.pending.get? r).map Pend.failed).getD [])) = pool at hres
  cases hg : s.pending.get? r with
  | none =>
    rw [hg] at hpool hres
    have e1 : (if pool.isEmpty = true then s else s) = s := by split <;> rfl
    dsimp only at hres
    rw [e1] at hres
    have hh : ¬ s.pending.has r = true := by unfold AMap.has; rw [hg]; simp
    cases hpk : (if pool.isEmpty = true then s.connected else pool)[pick %
        (if pool.isEmpty = true then s.connected else pool).length]? with
    | none =>
      rw [hpk] at hres; subst hres
      exact ⟨fun _ _ => rfl, .inl ⟨rfl, rfl, fun _ => hg⟩⟩
    | some peer =>
      rw [hpk] at hres
      dsimp only at hres
      cases sent with
      | false =>
        rw [if_pos (by simp)] at hres; subst hres
        exact ⟨fun _ _ => rfl, .inl ⟨rfl, rfl, fun _ => hg⟩⟩
      | true =>
        rw [if_neg (by simp), if_neg hh] at hres; subst hres
        refine ⟨fun r' hr => ?_, .inr ⟨peer, rfl, rfl, fun _ => ?_, fun q hq => by (cases hq)⟩⟩
        · exact (AMap.get?_insert ..).trans (if_neg (Ne.symm hr))
        · exact (AMap.get?_insert ..).trans (if_pos rfl)
  | some q =>
    rw [hg] at hpool hres
    dsimp only at hres
    by_cases hp : pool.isEmpty = true
    · simp only [hp, if_true] at hres
      have hall : ∀ c ∈ s.connected, c ∈ q.failed := by
        intro c hc
        rw [List.isEmpty_iff] at hp
        rw [hp, List.filter_eq_nil_iff] at hpool
        have := hpool c hc
        simpa using this
      have hh : AMap.has (s.pending.insert r { q with failed := [] }) r = true := by
        unfold AMap.has; rw [AMap.get?_insert_self]; rfl
      cases hpk : s.connected[pick % s.connected.length]? with
      | none =>
        rw [hpk] at hres; subst hres
        refine ⟨fun r' hr => ?_, .inl ⟨rfl, rfl, fun h => by (cases h)⟩⟩
        exact (AMap.get?_insert ..).trans (if_neg (Ne.symm hr))
      | some peer =>
        rw [hpk] at hres
        dsimp only at hres
        cases sent with
        | false =>
          rw [if_pos (by simp)] at hres; subst hres
          refine ⟨fun r' hr => ?_, .inl ⟨rfl, rfl, fun h => by (cases h)⟩⟩
          exact (AMap.get?_insert ..).trans (if_neg (Ne.symm hr))
        | true =>
          rw [if_neg (by simp), if_pos hh] at hres; subst hres
          refine ⟨fun r' hr => ?_, .inr ⟨peer, rfl, rfl, fun h => by (cases h), fun q' hq => ?_⟩⟩
          · exact (AMap.get?_insert ..).trans (if_neg (Ne.symm hr))
          · cases hq
            exact .inr ⟨hall, (AMap.get?_insert ..).trans (if_pos rfl)⟩
    · have hh : s.pending.has r = true := by unfold AMap.has; rw [hg]; rfl
      rw [if_neg hp, if_neg hp] at hres
      cases hpk : pool[pick % pool.length]? with
      | none =>
        rw [hpk] at hres; subst hres
        exact ⟨fun _ _ => rfl, .inl ⟨rfl, rfl, fun h => by (cases h)⟩⟩
      | some peer =>
        rw [hpk] at hres
        dsimp only at hres
        cases sent with
        | false =>
          rw [if_pos (by simp)] at hres; subst hres
          exact ⟨fun _ _ => rfl, .inl ⟨rfl, rfl, fun h => by (cases h)⟩⟩
        | true =>
          rw [if_neg (by simp), if_pos hh] at hres; subst hres
          refine ⟨fun _ _ => rfl, .inr ⟨peer, rfl, rfl, fun h => by (cases h), fun q' hq => ?_⟩⟩
          cases hq
          refine .inl ⟨?_, hg⟩
          have := List.mem_of_getElem? hpk
          rw [← hpool] at this
          have := (List.mem_filter.1 this).2
          simpa using this

theorem fetchFailure_pend (s : Server) (r : Root) (p : Peer) :
    let res := fetchFailure s r p
    (∀ r', r' ≠ r → res.1.pending.get? r' = s.pending.get? r') ∧
    ((s.pending.get? r = none ∧ res.1.pending.get? r = none ∧ res.2 = []) ∨
     (res.1.pending.get? r = none ∧ res.2 = [.closed r]) ∨
     ∃ q q' ms, s.pending.get? r = some q ∧ res.1.pending.get? r = some q' ∧ p ∈ q'.failed ∧
       (∀ x ∈ q.failed, x ∈ q'.failed) ∧ (∀ x ∈ q'.failed, x ∈ q.failed ∨ x = p) ∧
       res.2 = [.retryAfter r ms]) := by
  intro res
  have hres : res = fetchFailure s r p := rfl
  clear_value res
  unfold fetchFailure at hres
  cases hg : s.pending.get? r with
  | none =>
    rw [hg] at hres; subst hres
    exact ⟨fun _ _ => rfl, .inl ⟨rfl, hg, rfl⟩⟩
  | some q =>
    rw [hg] at hres
    dsimp only at hres
    by_cases hq : q.attempts ≥ maxFetchRetries
    · rw [if_pos hq] at hres; subst hres
      refine ⟨fun r' hr => ?_, .inr (.inl ⟨(AMap.get?_erase ..).trans (if_pos rfl), rfl⟩)⟩
      exact (AMap.get?_erase ..).trans (if_neg (Ne.symm hr))
    · rw [if_neg hq] at hres; subst hres
      refine ⟨fun r' hr => ?_, .inr (.inr ⟨q, _, _, rfl, (AMap.get?_insert ..).trans (if_pos rfl),
        ?_, ?_, ?_, rfl⟩)⟩
      · exact (AMap.get?_insert ..).trans (if_neg (Ne.symm hr))
      · dsimp only; split
        · assumption
        · exact List.mem_append_right _ (List.mem_singleton_self _)
      · intro x hx; dsimp only; split
        · exact hx
        · exact List.mem_append_left _ hx
      · intro x hx; dsimp only at hx; split at hx
        · exact .inl hx
        · rcases List.mem_append.1 hx with hx | hx
          · exact .inl hx
          · exact .inr (List.mem_singleton.1 hx)

theorem rootBlocks_pend (r : Root) (bs : List RBlock) (s : Server) :
    (∀ r', r' ≠ r → (rootBlocks r bs s).1.pending.get? r' = s.pending.get? r') ∧
    (((rootBlocks r bs s).1.pending.get? r = s.pending.get? r ∧ OnlyForwards (rootBlocks r bs s).2) ∨
      ((rootBlocks r bs s).1.pending.get? r = none ∧
        ∃ fwd, OnlyForwards fwd ∧ (rootBlocks r bs s).2 = .closed r :: fwd)) := by
  obtain ⟨-, c⟩ := rootBlocks_cases r bs s
  constructor
  · have : ∀ (bs : List RBlock) (s : Server) (r' : Root), r' ≠ r →
        (rootBlocks r bs s).1.pending.get? r' = s.pending.get? r' := by
      intro bs
      induction bs with
      | nil => intro s r' _; rfl
      | cons b bs ih =>
        intro s r' hr
        unfold rootBlocks
        split
        · exact ih s r' hr
        · dsimp only
          rw [ih _ r' hr]
          exact (AMap.get?_erase ..).trans (if_neg (Ne.symm hr))
    exact this bs s
  · rcases c with ⟨-, c1, c2⟩ | ⟨-, c1, fwd, hf, c2⟩
    · exact .inl ⟨by rw [c1], by rw [c2]; intro o ho; cases ho⟩
    · rcases c2 with ⟨c2, c3⟩ | ⟨-, c3⟩
      · refine .inl ⟨?_, by rw [c3]; exact hf⟩
        unfold attempts at c1 c2
        rw [Option.map_eq_none_iff] at c1 c2
        rw [c1, c2]
      · unfold attempts at c1
        rw [Option.map_eq_none_iff] at c1
        exact .inr ⟨c1, fwd, hf, c3⟩

/-- The peer a response comes from. -/
def answerer : PEvent → Option (ReqId × Peer)
  | .blocks id p _ _ => some (id, p)
  | .errorResponse id p => some (id, p)
  | .failure id p => some (id, p)
  | _ => none

/-- How one event can change what is noted about one root. -/
inductive PendStep (s : Server) (e : PEvent) (id : ReqId) (r : Root) (pend' : Option Pend)
    (outs : List POut) : Prop
  | same : pend' = s.pending.get? r → rootLog r outs = [] → PendStep s e id r pend' outs
  | closed : pend' = none → rootLog r outs = [.closed] → POut.closed r ∈ outs →
      PendStep s e id r pend' outs
  | start (p : Peer) : s.pending.get? r = none → pend' = some ⟨1, []⟩ → outs = [.sendRoot id p r] →
      PendStep s e id r pend' outs
  | again (p : Peer) (q : Pend) (pick : Nat) (sent : Bool) : e = .retry r pick sent →
      s.pending.get? r = some q → outs = [.sendRoot id p r] →
      ((p ∉ q.failed ∧ pend' = some q) ∨
        ((∀ c ∈ s.connected, c ∈ q.failed) ∧ pend' = some { q with failed := [] })) →
      PendStep s e id r pend' outs
  | failed (rid : ReqId) (p : Peer) (q q' : Pend) (ms : Nat) : answerer e = some (rid, p) →
      s.outbound.get? rid = some (.root r) → s.pending.get? r = some q → pend' = some q' →
      p ∈ q'.failed → (∀ x ∈ q.failed, x ∈ q'.failed) → (∀ x ∈ q'.failed, x ∈ q.failed ∨ x = p) →
      outs = [.retryAfter r ms] → PendStep s e id r pend' outs

theorem step_pend (ord : AMap Peer Nat → AMap Peer Nat) (s : Server) (id : ReqId) (e : PEvent)
    (r : Root) :
    PendStep s e id r ((s.step ord id e).1.pending.get? r) (s.step ord id e).2 := by
  have fail : ∀ (s0 : Server) (r0 : Root) (rid : ReqId) (p : Peer), s0.pending = s.pending →
      answerer e = some (rid, p) → s.outbound.get? rid = some (.root r0) →
      PendStep s e id r ((fetchFailure s0 r0 p).1.pending.get? r) (fetchFailure s0 r0 p).2 := by
    intro s0 r0 rid p hs ha ho
    obtain ⟨h1, h2⟩ := fetchFailure_pend s0 r0 p
    rw [hs] at h1 h2
    by_cases hr : r = r0
    · subst hr
      rcases h2 with ⟨h2, h3, h4⟩ | ⟨h3, h2⟩ | ⟨q, q', ms, h2, h3, h4, h5, h6, h7⟩
      · exact .same (by rw [h3, h2]) (by rw [h4]; rfl)
      · rw [h2]; exact .closed h3 (by simp [rootLog]) (List.mem_singleton_self _)
      · exact .failed rid p q q' ms ha ho h2 h3 h4 h5 h6 h7
    · refine .same (h1 r hr) ?_
      have hr' : ¬ r0 = r := fun h => hr h.symm
      rcases h2 with ⟨-, -, h4⟩ | ⟨-, h2⟩ | ⟨q, q', ms, -, -, -, -, -, h7⟩
      · rw [h4]; rfl
      · rw [h2]; simp [rootLog, hr']
      · rw [h7]; simp [rootLog, hr']
  have quiet : ∀ (s1 : Server) (outs : List POut), s1.pending = s.pending → rootLog r outs = [] →
      PendStep s e id r (s1.pending.get? r) outs := fun s1 outs h1 h2 => .same (by rw [h1]) h2
  cases e with
  | connected p => exact .same rfl rfl
  | disconnected p => exact .same rfl rfl
  | initChain => exact .same rfl rfl
  | fetch r0 pick sent =>
    unfold Server.step
    dsimp only
    by_cases hh : s.pending.has r0 = true
    · rw [if_pos hh]; exact .same rfl rfl
    rw [if_neg hh]
    have hg : s.pending.get? r0 = none := by
      cases hg : s.pending.get? r0 with
      | none => rfl
      | some q => exact absurd (by simp [AMap.has, hg]) hh
    obtain ⟨h1, h2⟩ := fetchFromPeer_pend s id r0 pick sent
    by_cases hr : r = r0
    · subst hr
      rcases h2 with ⟨-, h3, h4⟩ | ⟨p, -, h3, h4, -⟩
      · exact .same (by rw [h4 hg, hg]) (by rw [h3]; rfl)
      · exact .start p hg (h4 hg) h3
    · refine .same (h1 r hr) ?_
      have hr' : ¬ r0 = r := fun h => hr h.symm
      rcases h2 with ⟨-, h3, -⟩ | ⟨p, -, h3, -⟩
      · rw [h3]; rfl
      · rw [h3]; simp [rootLog, hr']
  | retry r0 pick sent =>
    unfold Server.step
    dsimp only
    by_cases hh : s.pending.has r0 = true
    case neg => rw [if_pos hh]; exact .same rfl rfl
    rw [if_neg (by simp [hh])]
    obtain ⟨q, hg⟩ : ∃ q, s.pending.get? r0 = some q := by
      cases hg : s.pending.get? r0 with
      | none => simp [AMap.has, hg] at hh
      | some q => exact ⟨q, rfl⟩
    obtain ⟨h1, h2⟩ := fetchFromPeer_pend s id r0 pick sent
    rcases h2 with ⟨h2, h3, h4⟩ | ⟨p, h2, h3, h4, h5⟩
    · rw [if_neg (by rw [h2]; simp), h3]
      by_cases hr : r = r0
      · subst hr
        exact .closed ((AMap.get?_erase ..).trans (if_pos rfl)) (by simp [rootLog]) (List.mem_singleton_self _)
      · have hr' : ¬ r0 = r := fun h => hr h.symm
        refine .same ?_ (by simp [rootLog, hr'])
        exact ((AMap.get?_erase ..).trans (if_neg hr')).trans (h1 r hr)
    · rw [if_pos h2]
      by_cases hr : r = r0
      · subst hr
        exact .again p q pick sent rfl hg h3 (h5 q hg)
      · have hr' : ¬ r0 = r := fun h => hr h.symm
        exact .same (h1 r hr) (by rw [h3]; simp [rootLog, hr'])
  | status p head ourHead sent =>
    obtain ⟨h1, -, c⟩ := statusResponse_frame ord s id sent p head ourHead
    have hst : s.step ord id (.status p head ourHead sent)
      = statusResponse ord s id sent p head ourHead := rfl
    rw [hst]
    refine quiet _ _ h1 ?_
    rcases c with ⟨c, -⟩ | ⟨p, a, b, c, -⟩ <;> rw [c] <;> rfl
  | blocks rid p bs sent =>
    unfold Server.step
    dsimp only
    cases ho : s.outbound.get? rid with
    | none => exact .same rfl rfl
    | some k =>
      cases k with
      | range a b =>
        dsimp only
        obtain ⟨h1, -, fwd, rest, hf, h2, h3⟩ := byRangeResponse_frame ord
          { s with outbound := s.outbound.erase rid } id sent p a b bs
        refine quiet _ _ h1 ?_
        rw [h2, rootLog_append, rootLog_forwards r hf]
        rcases h3 with ⟨h3, -⟩ | ⟨p, a, b, h3, -⟩ <;> rw [h3] <;> rfl
      | root r0 =>
        dsimp only
        unfold byRootResponse
        by_cases h0 : bs.isEmpty = true
        · rw [if_pos h0]
          exact fail _ r0 rid p rfl rfl ho
        · rw [if_neg h0]
          obtain ⟨h1, h2⟩ := rootBlocks_pend r0 bs { s with outbound := s.outbound.erase rid }
          by_cases hr : r = r0
          · subst hr
            rcases h2 with ⟨h2, h3⟩ | ⟨h4, fwd, hf, h3⟩
            · exact .same h2 (rootLog_forwards r h3)
            · rw [h3]
              refine .closed h4 ?_ List.mem_cons_self
              show rootLog r ([POut.closed r] ++ fwd) = _
              rw [rootLog_append, rootLog_forwards r hf]
              simp [rootLog]
          · have hr' : ¬ r0 = r := fun h => hr h.symm
            refine .same (h1 r hr) ?_
            rcases h2 with ⟨-, h3⟩ | ⟨-, fwd, hf, h3⟩
            · exact rootLog_forwards r h3
            · rw [h3]
              show rootLog r ([POut.closed r0] ++ fwd) = _
              rw [rootLog_append, rootLog_forwards r hf]
              simp [rootLog, hr']
  | errorResponse rid p =>
    unfold Server.step
    dsimp only
    cases ho : s.outbound.get? rid with
    | none => exact .same rfl rfl
    | some k =>
      cases k with
      | range a b => exact quiet _ _ (failRange_frame _ p).1 rfl
      | root r0 => exact quiet _ _ rfl rfl
  | failure rid p =>
    unfold Server.step
    dsimp only
    cases ho : s.outbound.get? rid with
    | none => exact .same rfl rfl
    | some k =>
      cases k with
      | range a b => exact quiet _ _ (failRange_frame _ p).1 rfl
      | root r0 =>
        exact fail { s with outbound := s.outbound.erase rid } r0 rid p rfl rfl ho

theorem asks_append (r : Root) (a b : List POut) : asks r (a ++ b) = asks r a ++ asks r b :=
  List.filterMap_append

theorem mem_asks {r : Root} {p : Peer} {l : List POut} :
    p ∈ asks r l ↔ ∃ i, POut.sendRoot i p r ∈ l := by
  unfold asks
  rw [List.mem_filterMap]
  constructor
  · rintro ⟨o, ho, he⟩
    cases o with
    | sendRoot i q r' =>
      dsimp only at he
      split at he
      · rename_i hr
        rw [hr, Option.some.inj he] at ho
        exact ⟨i, ho⟩
      · cases he
    | _ => cases he
  · rintro ⟨i, hi⟩
    exact ⟨_, hi, by simp⟩

theorem mem_rootLog_asked {r : Root} {i : ReqId} {p : Peer} {l : List POut}
    (h : POut.sendRoot i p r ∈ l) : RootLog.asked ∈ rootLog r l :=
  List.mem_filterMap.2 ⟨_, h, by simp⟩

theorem asks_quiet {r : Root} {l : List POut} (h : RootLog.asked ∉ rootLog r l) : asks r l = [] := by
  rw [List.eq_nil_iff_forall_not_mem]
  intro p hp
  obtain ⟨i, hi⟩ := mem_asks.1 hp
  exact h (mem_rootLog_asked hi)

theorem mem_rootLog_closed {r : Root} {l : List POut} (h : POut.closed r ∈ l) :
    RootLog.closed ∈ rootLog r l := List.mem_filterMap.2 ⟨_, h, by simp⟩

theorem timersOf_rootLog {r : Root} {l : List POut} (h : rootLog r l = []) :
    (timersOf l).count r = 0 := by
  rw [List.count_eq_zero]
  intro hm
  obtain ⟨o, ho, he⟩ := List.mem_filterMap.1 hm
  cases o with
  | retryAfter r' ms =>
    have he : r' = r := Option.some.inj he
    have : RootLog.waits ms ∈ rootLog r l := List.mem_filterMap.2 ⟨_, ho, by simp [he]⟩
    rw [h] at this
    cases this
  | sendRoot _ _ _ => cases he
  | sendRange _ _ _ _ => cases he
  | forward _ => cases he
  | closed _ => cases he

end Verif.Net
