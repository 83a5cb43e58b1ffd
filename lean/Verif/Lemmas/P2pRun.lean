import Verif.Lemmas.P2pRoot

namespace Verif.Net
open Verif

/-- Where the notes about requests come from. -/
theorem outbound_origin (ord : AMap Peer Nat → AMap Peer Nat) (s : Server) (id : ReqId) (e : PEvent)
    {x : ReqId} {r : Root}
    (h : (s.step ord id e).1.outbound.get? x = some (.root r)) :
    s.outbound.get? x = some (.root r) ∨ ∃ p, POut.sendRoot x p r ∈ (s.step ord id e).2 := by
  have ers : ∀ {m : AMap ReqId Kind} {rid : ReqId}, (m.erase rid).get? x = some (.root r) →
      m.get? x = some (.root r) := by
    intro m rid h
    rw [AMap.get?_erase] at h
    split at h
    · cases h
    · exact h
  have ins : ∀ {m : AMap ReqId Kind} {a b : Nat}, (m.insert id (.range a b)).get? x = some (.root r) →
      m.get? x = some (.root r) := by
    intro m a b h
    rw [AMap.get?_insert] at h
    split at h
    · cases h
    · exact h
  cases e with
  | connected p => exact .inl h
  | disconnected p => exact .inl h
  | initChain => exact .inl h
  | fetch r0 pick sent =>
    unfold Server.step at h ⊢
    dsimp only at h ⊢
    split
    · rename_i hh; rw [if_pos hh] at h; exact .inl h
    · rename_i hh; rw [if_neg hh] at h
      obtain ⟨_, c⟩ := fetchFromPeer_cases s id r0 pick sent
      rcases c with ⟨_, _, c3, _⟩ | ⟨p, _, _, c2, c3, _⟩
      · rw [c3] at h; exact .inl h
      · rw [c3, AMap.get?_insert] at h
        split at h
        · rename_i hx
          subst hx
          cases h
          exact .inr ⟨p, by rw [c2]; simp⟩
        · exact .inl h
  | retry r0 pick sent =>
    unfold Server.step at h ⊢
    dsimp only at h ⊢
    split
    · rename_i hh; rw [if_pos hh] at h; exact .inl h
    · rename_i hh; rw [if_neg hh] at h
      obtain ⟨_, c⟩ := fetchFromPeer_cases s id r0 pick sent
      rcases c with ⟨c1, _, c3, _⟩ | ⟨p, c1, _, c2, c3, _⟩
      · rw [if_neg (by simp [c1])] at h
        dsimp only at h
        rw [c3] at h; exact .inl h
      · rw [if_pos c1] at h ⊢
        rw [c3, AMap.get?_insert] at h
        split at h
        · rename_i hx
          subst hx
          cases h
          exact .inr ⟨p, by rw [c2]; simp⟩
        · exact .inl h
  | status p head ourHead sent =>
    obtain ⟨_, _, c⟩ := statusResponse_frame ord s id sent p head ourHead
    have h : (statusResponse ord s id sent p head ourHead).1.outbound.get? x = _ := h
    rcases c with ⟨_, c⟩ | ⟨_, _, _, _, c, _⟩
    · rw [c] at h; exact .inl h
    · rw [c] at h; exact .inl (ins h)
  | blocks rid p bs sent =>
    left
    unfold Server.step at h
    dsimp only at h
    split at h
    · exact h
    · rename_i a b hk
      obtain ⟨_, _, fwd, rest, _, _, c⟩ :=
        byRangeResponse_frame ord { s with outbound := s.outbound.erase rid } id sent p a b bs
      rcases c with ⟨_, c⟩ | ⟨_, _, _, _, c, _⟩
      · rw [c] at h; exact ers h
      · rw [c] at h; exact ers (ins h)
    · rename_i r0 hk
      unfold byRootResponse at h
      split at h
      · obtain ⟨⟨_, _, h3, _⟩, _⟩ := fetchFailure_cases
          { s with outbound := (s.outbound.erase rid).insert rid (.root r0) } r0 p
        rw [h3] at h
        dsimp only at h
        rw [AMap.get?_insert] at h
        split at h
        · rename_i hx; subst hx; rw [hk]; exact h
        · exact ers h
      · obtain ⟨⟨_, _, h3, _⟩, _⟩ := rootBlocks_cases r0 bs
          { s with outbound := s.outbound.erase rid }
        rw [h3] at h
        exact ers h
  | errorResponse rid p =>
    left
    unfold Server.step at h
    dsimp only at h
    split at h
    · exact h
    · obtain ⟨_, f2, _⟩ := failRange_frame { s with outbound := s.outbound.erase rid } p
      dsimp only at h
      rw [f2] at h
      exact ers h
    · rename_i r0 hk
      dsimp only at h
      rw [AMap.get?_insert] at h
      split at h
      · rename_i hx; subst hx; rw [hk]; exact h
      · exact ers h
  | failure rid p =>
    left
    unfold Server.step at h
    dsimp only at h
    split at h
    · exact h
    · obtain ⟨_, f2, _⟩ := failRange_frame { s with outbound := s.outbound.erase rid } p
      dsimp only at h
      rw [f2] at h
      exact ers h
    · rename_i r0 hk
      obtain ⟨⟨_, _, h3, _⟩, _⟩ := fetchFailure_cases { s with outbound := s.outbound.erase rid } r0 p
      rw [h3] at h
      exact ers h

theorem outputs_snoc (tr : List (PEvent × List POut)) (e : PEvent) (o : List POut) :
    outputs (tr ++ [(e, o)]) = outputs tr ++ o := by simp [outputs]

theorem current_append (a b : List RootLog) :
    current (a ++ b) = b.foldl (fun acc o => if o = .closed then [] else acc ++ [o]) (current a) := by
  unfold current; rw [List.foldl_append]

/-- What holds of one root at every moment of a run. -/
structure RInv (tr : List (PEvent × List POut)) (w : PWorld) (r : Root) : Prop where
  none : attempts w.srv r = none → flying w r = 0 ∧ ticking w r = 0 ∧
    current (rootLog r (outputs tr)) = []
  some : ∀ n, attempts w.srv r = some n → 1 ≤ n ∧ n ≤ 10 ∧
    (flying w r + ticking w r = 1 ∨ (flying w r + ticking w r = 0 ∧ WrongAnswered tr r)) ∧
    delays (current (rootLog r (outputs tr))) = (List.range (n - 1)).map (fun i => 5 * 2 ^ i) ∧
    (current (rootLog r (outputs tr))).count .asked + ticking w r = n

theorem WrongAnswered.snoc {tr : List (PEvent × List POut)} {r : Root} (h : WrongAnswered tr r)
    (x : PEvent × List POut) : WrongAnswered (tr ++ [x]) r := by
  obtain ⟨pre, e, outs, post, id, p, h1, h2, h3⟩ := h
  exact ⟨pre, e, outs, post ++ [x], id, p, by rw [h1]; simp, h2, h3⟩

theorem delays_append (a b : List RootLog) : delays (a ++ b) = delays a ++ delays b :=
  List.filterMap_append

theorem run_inv {ord : AMap Peer Nat → AMap Peer Nat} {tr : List (PEvent × List POut)} {w : PWorld}
    (h : PRun ord PWorld.init tr w) :
    BInv w ∧ (∀ x r, w.srv.outbound.get? x = some (.root r) → ∃ p, POut.sendRoot x p r ∈ outputs tr) ∧
    ∀ r, RInv tr w r := by
  induction h with
  | nil =>
    refine ⟨BInv.init, (fun x r h => by cases h), fun r => ⟨fun _ => ⟨rfl, rfl, rfl⟩, fun n hn => by cases hn⟩⟩
  | @snoc w tr e hrun ha ih =>
    obtain ⟨hb, ho, hi⟩ := ih
    refine ⟨hb.step ha, fun x r hx => ?_, fun r => ?_⟩
    · rw [outputs_snoc]
      rcases outbound_origin ord w.srv w.next e (x := x) (r := r) hx with h | ⟨p, h⟩
      · obtain ⟨p, hp⟩ := ho x r h
        exact ⟨p, List.mem_append_left _ hp⟩
      · exact ⟨p, List.mem_append_right _ h⟩
    · have hs := step_root (ord := ord) hb ha r
      obtain ⟨i1, i2⟩ := hi r
      have hwr : WrongAnswer w.srv r e → WrongAnswered (tr ++ [(e, (w.step ord e).2)]) r := by
        intro h
        cases e with
        | blocks id p bs sent =>
          obtain ⟨h1, h2, h3⟩ := h
          obtain ⟨q, hq⟩ := ho id r h1
          exact ⟨tr, _, _, [], id, q, rfl, hq, .inl ⟨p, bs, sent, rfl, h2, h3⟩⟩
        | errorResponse id p =>
          obtain ⟨q, hq⟩ := ho id r h
          exact ⟨tr, _, _, [], id, q, rfl, hq, .inr ⟨p, rfl⟩⟩
        | _ => cases h
      have hl : current (rootLog r (outputs (tr ++ [(e, (w.step ord e).2)])))
          = (rootLog r (w.step ord e).2).foldl (fun acc o => if o = .closed then [] else acc ++ [o])
            (current (rootLog r (outputs tr))) := by
        rw [outputs_snoc, rootLog_append, current_append]
      constructor
      · intro hn
        rw [hl]
        generalize hL : rootLog r (w.step ord e).2 = L at hs
        generalize ha' : attempts (w.step ord e).1.srv r = a' at hs hn
        generalize hf' : flying (w.step ord e).1 r = f' at hs ⊢
        generalize ht' : ticking (w.step ord e).1 r = t' at hs ⊢
        generalize hA : attempts w.srv r = A at hs i1 i2
        generalize hF : flying w r = F at hs i1 i2
        generalize hT : ticking w r = T at hs i1 i2
        subst hn
        cases hs with
        | idle => exact i1 rfl
        | giveUp n f t =>
          obtain ⟨_, _, j, _⟩ := i2 n rfl
          refine ⟨by omega, by omega, rfl⟩
        | stale f t => have := (i1 rfl).2.1; omega
        | got n f t =>
          obtain ⟨_, _, j, _⟩ := i2 n rfl
          refine ⟨by omega, by omega, rfl⟩
        | late f t => have := (i1 rfl).1; omega
        | last n f t hn =>
          obtain ⟨_, _, j, _⟩ := i2 n rfl
          refine ⟨by omega, by omega, rfl⟩
      · intro m hm
        rw [hl]
        generalize hL : rootLog r (w.step ord e).2 = L at hs
        generalize ha' : attempts (w.step ord e).1.srv r = a' at hs hm
        generalize hf' : flying (w.step ord e).1 r = f' at hs ⊢
        generalize ht' : ticking (w.step ord e).1 r = t' at hs ⊢
        generalize hA : attempts w.srv r = A at hs i1 i2
        generalize hF : flying w r = F at hs i1 i2
        generalize hT : ticking w r = T at hs i1 i2
        subst hm
        generalize current (rootLog r (outputs tr)) = C at i1 i2 ⊢
        cases hs with
        | idle =>
          obtain ⟨j1, j2, j3, j4, j5⟩ := i2 m rfl
          exact ⟨j1, j2, j3.imp id (fun h => ⟨h.1, h.2.snoc _⟩), j4, j5⟩
        | start f t =>
          obtain ⟨j1, j2, j3⟩ := i1 rfl
          subst j3
          refine ⟨by omega, by omega, .inl (by omega), rfl, ?_⟩
          show 1 + t' = 1
          omega
        | retry n f t =>
          obtain ⟨j1, j2, j3, j4, j5⟩ := i2 m rfl
          refine ⟨j1, j2, .inl (by omega), ?_, ?_⟩
          · show delays (C ++ [.asked]) = _
            rw [delays_append, j4]; simp [delays]
          · show (C ++ [RootLog.asked]).count .asked + _ = _
            rw [List.count_append, List.count_singleton_self]; omega
        | failed n f t hn =>
          obtain ⟨j1, j2, j3, j4, j5⟩ := i2 n rfl
          have hn : n < 10 := hn
          refine ⟨by omega, by omega, .inl (by omega), ?_, ?_⟩
          · show delays (C ++ [.waits (5 * 2 ^ (n - 1))]) = _
            rw [delays_append, j4, show n + 1 - 1 = (n - 1) + 1 by omega, List.range_succ,
              List.map_append]
            rfl
          · show (C ++ [RootLog.waits _]).count .asked + _ = _
            rw [List.count_append]
            have : List.count RootLog.asked [RootLog.waits (initialBackoffMs * backoffMultiplier ^ (n - 1))]
              = 0 := rfl
            omega
        | wrong n f t hw =>
          obtain ⟨j1, j2, j3, j4, j5⟩ := i2 m rfl
          exact ⟨j1, j2, .inr ⟨by omega, hwr hw⟩, j4, j5⟩

end Verif.Net
