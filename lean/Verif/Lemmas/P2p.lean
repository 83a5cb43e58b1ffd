import Verif.Spec.P2p
import Verif.Lemmas.AMap
import Verif.Props.C45_Greedy

namespace Verif.Net
open Verif

/-! ### The single functions -/

/-- What one root looks like: attempts made, if marked. -/
def attempts (s : Server) (r : Root) : Option Nat := (s.pending.get? r).map Pend.attempts

theorem has_iff_attempts {s : Server} {r : Root} :
    s.pending.has r = true ↔ ∃ n, attempts s r = some n := by
  unfold AMap.has attempts
  cases s.pending.get? r <;> simp

theorem has_false_iff {s : Server} {r : Root} :
    ¬ s.pending.has r = true ↔ attempts s r = none := by
  unfold AMap.has attempts
  cases s.pending.get? r <;> simp

theorem fetchFromPeer_cases (s : Server) (id : ReqId) (r : Root) (pick : Nat) (sent : Bool) :
    let res := fetchFromPeer s id r pick sent
    (res.2.1.range = s.range ∧ res.2.1.chain = s.chain) ∧
    ((res.1 = false ∧ res.2.2 = [] ∧ res.2.1.outbound = s.outbound ∧
        ∀ r', attempts res.2.1 r' = attempts s r') ∨
     (∃ p, res.1 = true ∧ p ∈ s.connected ∧ res.2.2 = [.sendRoot id p r] ∧
        res.2.1.outbound = s.outbound.insert id (.root r) ∧
        (∀ r', r' ≠ r → attempts res.2.1 r' = attempts s r') ∧
        attempts res.2.1 r = some ((attempts s r).getD 1))) := by
  intro res
  have hres : res = fetchFromPeer s id r pick sent := rfl
  clear_value res
  unfold fetchFromPeer at hres
  by_cases h0 : s.connected.isEmpty = true
  · rw [if_pos h0] at hres; subst hres
    exact ⟨⟨rfl, rfl⟩, .inl ⟨rfl, rfl, rfl, fun _ => rfl⟩⟩
  rw [if_neg h0] at hres
  dsimp only at hres
  generalize hpool : s.connected.filter
    (fun p => decide (p ∉ ((s.pending.get? r).map Pend.failed).getD [])) = pool at hres
  -- the server after clearing the failed peers
  have key : ∀ s1 : Server, s1 = (if pool.isEmpty = true then
        match s.pending.get? r with
        | some q => { s with pending := s.pending.insert r { q with failed := [] } }
        | none => s
      else s) →
      s1.range = s.range ∧ s1.chain = s.chain ∧ s1.connected = s.connected ∧
      s1.outbound = s.outbound ∧ ∀ r', attempts s1 r' = attempts s r' := by
    intro s1 h1
    by_cases hp : pool.isEmpty = true
    · rw [if_pos hp] at h1
      cases hg : s.pending.get? r with
      | none => rw [hg] at h1; subst h1; exact ⟨rfl, rfl, rfl, rfl, fun _ => rfl⟩
      | some q =>
        rw [hg] at h1; subst h1
        refine ⟨rfl, rfl, rfl, rfl, fun r' => ?_⟩
        unfold attempts
        simp only [AMap.get?_insert]
        by_cases hr : r = r'
        · subst hr; rw [if_pos rfl, hg]; rfl
        · rw [if_neg hr]
    · rw [if_neg hp] at h1; subst h1; exact ⟨rfl, rfl, rfl, rfl, fun _ => rfl⟩
  generalize hs1 : (if pool.isEmpty = true then
        match s.pending.get? r with
        | some q => { s with pending := s.pending.insert r { q with failed := [] } }
        | none => s
      else s) = s1 at hres
  obtain ⟨k1, k2, k3, k4, k5⟩ := key s1 hs1.symm
  generalize hpool2 : (if pool.isEmpty = true then s1.connected else pool) = pool2 at hres
  have hsub : ∀ p ∈ pool2, p ∈ s.connected := by
    intro p hp
    rw [← hpool2] at hp
    split at hp
    · rw [k3] at hp; exact hp
    · rw [← hpool] at hp; exact (List.mem_filter.1 hp).1
  cases hpk : pool2[pick % pool2.length]? with
  | none =>
    rw [hpk] at hres; subst hres
    exact ⟨⟨k1, k2⟩, .inl ⟨rfl, rfl, k4, k5⟩⟩
  | some peer =>
    rw [hpk] at hres
    dsimp only at hres
    have hmem := hsub peer (List.mem_of_getElem? hpk)
    cases sent with
    | false =>
      rw [if_pos (by simp)] at hres; subst hres
      exact ⟨⟨k1, k2⟩, .inl ⟨rfl, rfl, k4, k5⟩⟩
    | true =>
      rw [if_neg (by simp)] at hres; subst hres
      refine ⟨⟨k1, k2⟩, .inr ⟨peer, rfl, hmem, rfl, by simp only [k4], fun r' hr => ?_, ?_⟩⟩
      · rw [← k5 r']
        by_cases hh : s1.pending.has r = true
        · simp only [hh, if_true, attempts]
        · simp only [hh, attempts, Bool.false_eq_true, if_false, AMap.get?_insert]
          rw [if_neg (Ne.symm hr)]
      · rw [← k5 r]
        by_cases hh : s1.pending.has r = true
        · obtain ⟨n, hn⟩ := has_iff_attempts.1 hh
          rw [hn]
          simp only [hh, if_true]
          exact hn
        · rw [has_false_iff.1 hh]
          simp only [hh, attempts, Bool.false_eq_true, if_false, AMap.get?_insert, if_true]
          rfl

theorem failRange_frame (s : Server) (p : Peer) :
    (failRange s p).pending = s.pending ∧ (failRange s p).outbound = s.outbound ∧
    (failRange s p).chain = s.chain ∧ (failRange s p).connected = s.connected := by
  unfold failRange
  cases s.range <;> exact ⟨rfl, rfl, rfl, rfl⟩

theorem nextBatch_lt {ord : AMap Peer Nat → AMap Peer Nat} {st : RangeSync} {p : Peer} {a b : Nat}
    (h : st.nextBatch ord = some (p, a, b)) : a < b := by
  unfold RangeSync.nextBatch at h
  split at h
  · cases h
  · split at h
    · cases h
    · dsimp only at h
      split at h
      · rename_i hlt
        cases h
        exact hlt
      · cases h

theorem requestNext_frame (ord : AMap Peer Nat → AMap Peer Nat) (s : Server) (id : ReqId)
    (sent : Bool) :
    let res := requestNext ord s id sent
    res.1.pending = s.pending ∧ res.1.chain = s.chain ∧
    ((res.2 = [] ∧ res.1.outbound = s.outbound) ∨
     (∃ p a b, res.2 = [.sendRange id p a (b - a)] ∧
        res.1.outbound = s.outbound.insert id (.range a (b - 1)) ∧ a < b)) := by
  intro res
  have hres : res = requestNext ord s id sent := rfl
  clear_value res
  unfold requestNext at hres
  cases hr : s.range with
  | none => rw [hr] at hres; subst hres; exact ⟨rfl, rfl, .inl ⟨rfl, rfl⟩⟩
  | some st =>
    rw [hr] at hres
    dsimp only at hres
    cases hb : st.nextBatch ord with
    | none => rw [hb] at hres; subst hres; exact ⟨rfl, rfl, .inl ⟨rfl, rfl⟩⟩
    | some x =>
      obtain ⟨p, a, b⟩ := x
      rw [hb] at hres
      dsimp only at hres
      cases sent with
      | false =>
        rw [if_pos (by simp)] at hres; subst hres
        obtain ⟨f1, f2, f3, _⟩ := failRange_frame s p
        exact ⟨f1, f3, .inl ⟨rfl, f2⟩⟩
      | true =>
        rw [if_neg (by simp)] at hres; subst hres
        exact ⟨rfl, rfl, .inr ⟨p, a, b, rfl, rfl, nextBatch_lt hb⟩⟩

/-- Outputs that are only forwarded blocks. -/
def OnlyForwards (l : List POut) : Prop := ∀ o ∈ l, ∃ b, o = .forward b

theorem byRangeResponse_frame (ord : AMap Peer Nat → AMap Peer Nat) (s : Server) (id : ReqId)
    (sent : Bool) (p : Peer) (first last : Nat) (bs : List RBlock) :
    let res := byRangeResponse ord s id sent p first last bs
    res.1.pending = s.pending ∧ res.1.chain = s.chain ∧
    ∃ fwd rest, OnlyForwards fwd ∧ res.2 = fwd ++ rest ∧
    ((rest = [] ∧ res.1.outbound = s.outbound) ∨
     (∃ p a b, rest = [.sendRange id p a (b - a)] ∧
        res.1.outbound = s.outbound.insert id (.range a (b - 1)) ∧ a < b)) := by
  intro res
  have hres : res = byRangeResponse ord s id sent p first last bs := rfl
  clear_value res
  unfold byRangeResponse at hres
  have hnil : OnlyForwards [] := fun o ho => by cases ho
  by_cases h0 : bs.isEmpty = true
  · rw [if_pos h0] at hres; subst hres
    obtain ⟨f1, f2, f3, _⟩ := failRange_frame s p
    exact ⟨f1, f3, [], [], hnil, rfl, .inl ⟨rfl, f2⟩⟩
  rw [if_neg h0] at hres
  by_cases hc : s.chain = true
  case neg =>
    rw [if_pos hc] at hres; subst hres
    exact ⟨rfl, rfl, [], [], hnil, rfl, .inl ⟨rfl, rfl⟩⟩
  rw [if_neg (by simp [hc])] at hres
  dsimp only at hres
  generalize hf : (bs.filter (fun b => decide (first ≤ b.slot ∧ b.slot ≤ last))).map POut.forward
    = fwd at hres
  have hfw : OnlyForwards fwd := by
    intro o ho
    rw [← hf] at ho
    obtain ⟨b, _, hb⟩ := List.mem_map.1 ho
    exact ⟨b, hb.symm⟩
  cases hr : s.range with
  | none =>
    rw [hr] at hres; subst hres
    exact ⟨rfl, rfl, fwd, [], hfw, by simp, .inl ⟨rfl, rfl⟩⟩
  | some st =>
    rw [hr] at hres
    dsimp only at hres
    split at hres
    · subst hres
      exact ⟨rfl, rfl, fwd, [], hfw, by simp, .inl ⟨rfl, rfl⟩⟩
    · subst hres
      obtain ⟨f1, f2, f3⟩ := requestNext_frame ord { s with range := some (st.complete last) } id sent
      exact ⟨f1, f2, fwd, _, hfw, rfl, f3⟩

theorem statusResponse_frame (ord : AMap Peer Nat → AMap Peer Nat) (s : Server) (id : ReqId)
    (sent : Bool) (p : Peer) (head ourHead : Nat) :
    let res := statusResponse ord s id sent p head ourHead
    res.1.pending = s.pending ∧ res.1.chain = s.chain ∧
    ((res.2 = [] ∧ res.1.outbound = s.outbound) ∨
     (∃ p a b, res.2 = [.sendRange id p a (b - a)] ∧
        res.1.outbound = s.outbound.insert id (.range a (b - 1)) ∧ a < b)) := by
  intro res
  have hres : res = statusResponse ord s id sent p head ourHead := rfl
  clear_value res
  unfold statusResponse at hres
  by_cases h0 : head ≤ ourHead
  · rw [if_pos h0] at hres; subst hres; exact ⟨rfl, rfl, .inl ⟨rfl, rfl⟩⟩
  rw [if_neg h0] at hres
  dsimp only at hres
  subst hres
  exact requestNext_frame ord { s with range := some _ } id sent

theorem fetchFailure_cases (s : Server) (r : Root) (p : Peer) :
    let res := fetchFailure s r p
    (res.1.range = s.range ∧ res.1.chain = s.chain ∧ res.1.outbound = s.outbound ∧
      ∀ r', r' ≠ r → attempts res.1 r' = attempts s r') ∧
    ((attempts s r = none ∧ res.1 = s ∧ res.2 = []) ∨
     (∃ n, attempts s r = some n ∧ n ≥ maxFetchRetries ∧ attempts res.1 r = none ∧
        res.2 = [.closed r]) ∨
     (∃ n, attempts s r = some n ∧ n < maxFetchRetries ∧ attempts res.1 r = some (n + 1) ∧
        res.2 = [.retryAfter r (initialBackoffMs * backoffMultiplier ^ (n - 1))])) := by
  intro res
  have hres : res = fetchFailure s r p := rfl
  clear_value res
  unfold fetchFailure at hres
  cases hg : s.pending.get? r with
  | none =>
    rw [hg] at hres; subst hres
    exact ⟨⟨rfl, rfl, rfl, fun _ _ => rfl⟩, .inl ⟨by simp [attempts, hg], rfl, rfl⟩⟩
  | some q =>
    rw [hg] at hres
    dsimp only at hres
    have ha : attempts s r = some q.attempts := by simp [attempts, hg]
    by_cases hq : q.attempts ≥ maxFetchRetries
    · rw [if_pos hq] at hres; subst hres
      refine ⟨⟨rfl, rfl, rfl, fun r' hr => ?_⟩, .inr (.inl ⟨_, ha, hq, ?_, rfl⟩)⟩
      · simp only [attempts, AMap.get?_erase]; rw [if_neg (Ne.symm hr)]
      · simp [attempts, AMap.get?_erase]
    · rw [if_neg hq] at hres; subst hres
      refine ⟨⟨rfl, rfl, rfl, fun r' hr => ?_⟩, .inr (.inr ⟨_, ha, Nat.lt_of_not_le hq, ?_, rfl⟩)⟩
      · simp only [attempts, AMap.get?_insert]; rw [if_neg (Ne.symm hr)]
      · simp [attempts, AMap.get?_insert]

theorem rootBlocks_cases (r : Root) : ∀ (bs : List RBlock) (s : Server),
    let res := rootBlocks r bs s
    (res.1.range = s.range ∧ res.1.chain = s.chain ∧ res.1.outbound = s.outbound ∧
      ∀ r', r' ≠ r → attempts res.1 r' = attempts s r') ∧
    (((∀ b ∈ bs, b.root ≠ r) ∧ res.1 = s ∧ res.2 = []) ∨
     ((∃ b ∈ bs, b.root = r) ∧ attempts res.1 r = none ∧
        ∃ fwd, OnlyForwards fwd ∧
          (attempts s r = none ∧ res.2 = fwd ∨
           (∃ n, attempts s r = some n) ∧ res.2 = .closed r :: fwd)))
  | [], s => ⟨⟨rfl, rfl, rfl, fun _ _ => rfl⟩, .inl ⟨by simp, rfl, rfl⟩⟩
  | b :: bs, s => by
    intro res
    have hres : res = rootBlocks r (b :: bs) s := rfl
    clear_value res
    unfold rootBlocks at hres
    by_cases hb : b.root = r
    case neg =>
      rw [if_pos hb] at hres
      obtain ⟨h1, h2⟩ := rootBlocks_cases r bs s
      rw [← hres] at h1 h2
      refine ⟨h1, ?_⟩
      rcases h2 with ⟨h2, h3, h4⟩ | ⟨⟨b', hb', hr'⟩, h3⟩
      · refine .inl ⟨fun b' hb' => ?_, h3, h4⟩
        rcases List.mem_cons.1 hb' with rfl | hb'
        · exact hb
        · exact h2 _ hb'
      · exact .inr ⟨⟨b', List.mem_cons_of_mem _ hb', hr'⟩, h3⟩
    rw [if_neg (by simp [hb])] at hres
    dsimp only at hres
    obtain ⟨⟨i1, i2, i3, i4⟩, i5⟩ := rootBlocks_cases r bs { s with pending := s.pending.erase r }
    have hnone : attempts { s with pending := s.pending.erase r } r = none := by
      simp [attempts, AMap.get?_erase]
    have hfirst : ∃ f1 : List POut, OnlyForwards f1 ∧ f1 = (if s.chain = true then [.forward b] else []) := by
      refine ⟨_, fun o ho => ?_, rfl⟩
      split at ho
      · exact ⟨b, by simpa using ho⟩
      · cases ho
    obtain ⟨f1, hf1, hf1e⟩ := hfirst
    have hrest : ∃ f2, OnlyForwards f2 ∧
        (rootBlocks r bs { s with pending := s.pending.erase r }).2 = f2 ∧
        attempts (rootBlocks r bs { s with pending := s.pending.erase r }).1 r = none := by
      rcases i5 with ⟨_, e1, e2⟩ | ⟨_, e1, f2, hf2, e2⟩
      · exact ⟨[], (fun o ho => by cases ho), e2, by rw [e1]; exact hnone⟩
      · rcases e2 with ⟨_, e2⟩ | ⟨⟨n, hn⟩, _⟩
        · exact ⟨f2, hf2, e2, e1⟩
        · rw [hnone] at hn; cases hn
    obtain ⟨f2, hf2, e2, e3⟩ := hrest
    have hf12 : OnlyForwards (f1 ++ f2) := fun o ho => by
      rcases List.mem_append.1 ho with ho | ho
      · exact hf1 o ho
      · exact hf2 o ho
    rw [← hf1e, e2] at hres
    subst hres
    refine ⟨⟨i1, i2, i3, fun r' hr => ?_⟩, .inr ⟨⟨b, List.mem_cons_self, hb⟩, e3, f1 ++ f2, hf12, ?_⟩⟩
    · rw [i4 r' hr]
      simp only [attempts, AMap.get?_erase]; rw [if_neg (Ne.symm hr)]
    · by_cases hh : s.pending.has r = true
      · exact .inr ⟨has_iff_attempts.1 hh, by simp [hh]⟩
      · exact .inl ⟨has_false_iff.1 hh, by simp [hh]⟩

end Verif.Net
