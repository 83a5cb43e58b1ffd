import Verif.Lemmas.P2pRun
/-!
# C72: only blocks that were asked for reach the chain, and all of them do
-/
namespace Verif.Net
open Verif

theorem forwards_append (a b : List POut) : forwards (a ++ b) = forwards a ++ forwards b :=
  List.filterMap_append

theorem forwards_map (bs : List RBlock) : forwards (bs.map POut.forward) = bs := by
  unfold forwards
  rw [List.filterMap_map]
  exact List.filterMap_some

/-- The request noted under an id, as it went over the wire. -/
def AskedAs (outs : List POut) (id : ReqId) (p : Peer) : Kind → Prop
  | .root r => POut.sendRoot id p r ∈ outs
  | .range a b => a ≤ b ∧ POut.sendRange id p a (b + 1 - a) ∈ outs

theorem AskedAs.mono {o1 o2 : List POut} {id : ReqId} {p : Peer} {k : Kind}
    (h : AskedAs o1 id p k) (hs : ∀ x ∈ o1, x ∈ o2) : AskedAs o2 id p k := by
  cases k with
  | root r => exact hs _ h
  | range a b => exact ⟨h.1, hs _ h.2⟩

/-- Every unanswered request is noted as it was sent. -/
theorem inflight_noted {ord : AMap Peer Nat → AMap Peer Nat} {tr : List (PEvent × List POut)}
    {w : PWorld} (h : PRun ord PWorld.init tr w) :
    ∀ x ∈ w.inflight, ∃ k, w.srv.outbound.get? x.1 = some k ∧ AskedAs (outputs tr) x.1 x.2 k := by
  induction h with
  | nil => intro x hx; cases hx
  | @snoc w tr e hrun ha ih =>
    obtain ⟨hb, -⟩ := run_inv hrun
    have hf : answers e ≠ some w.next := fun h => Nat.lt_irrefl _ (fresh_answers hb ha h)
    obtain ⟨hfr, hs⟩ := step_frame ord w.srv w.next e hf
    intro x hx
    rw [outputs_snoc]
    have hx : x ∈ w.rest e ++ sends (w.srv.step ord w.next e).2 := hx
    show ∃ k, (w.srv.step ord w.next e).1.outbound.get? x.1 = some k ∧
      AskedAs (outputs tr ++ (w.srv.step ord w.next e).2) x.1 x.2 k
    rcases List.mem_append.1 hx with hx | hx
    · rw [rest_eq] at hx
      obtain ⟨h1, h2⟩ := List.mem_filter.1 hx
      obtain ⟨k, k1, k2⟩ := ih x h1
      refine ⟨k, ?_, k2.mono (fun y hy => List.mem_append_left _ hy)⟩
      rw [hfr x.1 (Nat.ne_of_lt (hb.old x h1)) (of_decide_eq_true h2)]
      exact k1
    · cases hs with
      | none h1 => rw [h1] at hx; cases hx
      | root p r h1 h2 h3 _ =>
        rw [h1] at hx
        rw [List.mem_singleton] at hx
        subst hx
        exact ⟨_, h2, List.mem_append_right _ h3⟩
      | range p a b h1 h2 h3 h4 =>
        rw [h1] at hx
        rw [List.mem_singleton] at hx
        subst hx
        refine ⟨_, h2, by omega, List.mem_append_right _ ?_⟩
        have hm : (w.next, p, a, b - a) ∈ rangeSends (w.srv.step ord w.next e).2 := by
          rw [h3]; exact List.mem_singleton_self _
        unfold rangeSends at hm
        obtain ⟨y, hy, he⟩ := List.mem_filterMap.1 hm
        cases y <;> simp only [reduceCtorEq, Option.some.injEq, Prod.mk.injEq] at he
        obtain ⟨q1, q2, q3, q4⟩ := he
        have : b - 1 + 1 - a = b - a := by omega
        rw [q1, q2, q3, q4] at hy
        rw [this]
        exact hy

theorem rootBlocks_forwards (r : Root) : ∀ (bs : List RBlock) (s : Server),
    forwards (rootBlocks r bs s).2 = if s.chain then bs.filter (fun b => decide (b.root = r)) else []
  | [], s => by simp [rootBlocks, forwards]
  | b :: bs, s => by
    unfold rootBlocks
    by_cases hb : b.root = r
    · rw [if_neg (by simp [hb])]
      dsimp only
      have ih := rootBlocks_forwards r bs { s with pending := s.pending.erase r }
      rw [forwards_append, forwards_append, ih]
      have hc : forwards (if s.pending.has r = true then [POut.closed r] else []) = [] := by
        split <;> rfl
      rw [hc]
      cases h : s.chain with
      | true => simp [forwards, hb]
      | false => simp [forwards]
    · rw [if_pos hb, rootBlocks_forwards r bs s]
      simp [hb]

theorem byRange_forwards (ord : AMap Peer Nat → AMap Peer Nat) (s : Server) (id : ReqId)
    (sent : Bool) (p : Peer) (first last : Nat) (bs : List RBlock) :
    forwards (byRangeResponse ord s id sent p first last bs).2 =
      if s.chain then bs.filter (fun b => decide (first ≤ b.slot ∧ b.slot ≤ last)) else [] := by
  unfold byRangeResponse
  by_cases h0 : bs.isEmpty = true
  · rw [if_pos h0]
    rw [List.isEmpty_iff.1 h0]
    simp [forwards]
  rw [if_neg h0]
  cases hc : s.chain with
  | false => simp [forwards]
  | true =>
    rw [if_neg (by simp)]
    dsimp only
    rw [if_pos rfl]
    cases hr : s.range with
    | none => exact forwards_map _
    | some st =>
      dsimp only
      split
      · exact forwards_map _
      · dsimp only
        rw [forwards_append, forwards_map]
        have : ∀ s : Server, forwards (requestNext ord s id sent).2 = [] := by
          intro s
          obtain ⟨-, -, h⟩ := requestNext_frame ord s id sent
          rcases h with ⟨h, -⟩ | ⟨p, a, b, h, -⟩ <;> rw [h] <;> rfl
        rw [this, List.append_nil]

/-- **C72.** The blocks handed to the chain in response to a message are exactly those of the message
that the request it answers asked for, in the order received: all blocks with the requested root, or
all blocks whose slot is in the requested range. Before the chain actor is known nothing is handed
on. -/
theorem C72_exact {ord : AMap Peer Nat → AMap Peer Nat} {tr : List (PEvent × List POut)}
    {w : PWorld} (h : PRun ord PWorld.init tr w) {id : ReqId} {p : Peer} {bs : List RBlock}
    {sent : Bool} (ha : w.allows (.blocks id p bs sent)) :
    ∃ wanted, Requested (outputs tr) id p wanted ∧
      forwards (w.step ord (.blocks id p bs sent)).2 =
        if w.srv.chain then bs.filter wanted else [] := by
  obtain ⟨k, h1, h2⟩ := inflight_noted h (id, p) ha
  have h1 : w.srv.outbound.get? id = some k := h1
  show ∃ wanted, _ ∧ forwards (w.srv.step ord w.next (.blocks id p bs sent)).2 = _
  unfold Server.step
  dsimp only
  rw [h1]
  cases k with
  | root r =>
    refine ⟨_, .root r h2, ?_⟩
    dsimp only
    unfold byRootResponse
    by_cases h0 : bs.isEmpty = true
    · rw [if_pos h0, List.isEmpty_iff.1 h0]
      obtain ⟨-, c⟩ := fetchFailure_cases { w.srv with outbound := (w.srv.outbound.erase id).insert id (.root r) } r p
      rcases c with ⟨-, -, c⟩ | ⟨n, -, -, -, c⟩ | ⟨n, -, -, -, c⟩ <;> rw [c] <;> simp [forwards]
    · rw [if_neg h0, rootBlocks_forwards]
  | range a b =>
    refine ⟨_, .range a (b + 1 - a) h2.2, ?_⟩
    dsimp only
    rw [byRange_forwards]
    have := h2.1
    congr 1
    apply List.filter_congr
    intro x _
    apply decide_eq_decide.2
    omega

/-- **C72.** No other event hands blocks to the chain. -/
theorem C72_only_responses (ord : AMap Peer Nat → AMap Peer Nat) (w : PWorld) (e : PEvent)
    (he : ∀ id p bs sent, e ≠ .blocks id p bs sent) : forwards (w.step ord e).2 = [] := by
  show forwards (w.srv.step ord w.next e).2 = []
  cases e with
  | connected p => rfl
  | disconnected p => rfl
  | initChain => rfl
  | fetch r pick sent =>
    unfold Server.step
    dsimp only
    split
    · rfl
    · obtain ⟨-, c⟩ := fetchFromPeer_cases w.srv w.next r pick sent
      rcases c with ⟨-, c, -⟩ | ⟨p, -, -, c, -⟩ <;> rw [c] <;> rfl
  | retry r pick sent =>
    unfold Server.step
    dsimp only
    split
    · rfl
    · obtain ⟨-, c⟩ := fetchFromPeer_cases w.srv w.next r pick sent
      split <;> rcases c with ⟨-, c, -⟩ | ⟨p, -, -, c, -⟩ <;> rw [c] <;> rfl
  | status p head ourHead sent =>
    obtain ⟨-, -, c⟩ := statusResponse_frame ord w.srv w.next sent p head ourHead
    have : w.srv.step ord w.next (.status p head ourHead sent)
      = statusResponse ord w.srv w.next sent p head ourHead := rfl
    rw [this]
    rcases c with ⟨c, -⟩ | ⟨p, a, b, c, -⟩ <;> rw [c] <;> rfl
  | blocks id p bs sent => exact absurd rfl (he id p bs sent)
  | errorResponse id p =>
    unfold Server.step
    dsimp only
    split <;> rfl
  | failure id p =>
    unfold Server.step
    dsimp only
    split
    · rfl
    · rfl
    next r _ =>
      obtain ⟨-, c⟩ := fetchFailure_cases { w.srv with outbound := w.srv.outbound.erase id } r p
      rcases c with ⟨-, -, c⟩ | ⟨n, -, -, -, c⟩ | ⟨n, -, -, -, c⟩ <;> rw [c] <;> rfl

/-! ### Example: a range request for slots 11 to 13, answered with blocks of slots 10, 11, 13 and 14. -/

def fwdRun : PWorld :=
  ((PWorld.init.step id .initChain).1.step id (.status 7 13 10 true)).1

example : fwdRun.inflight = [(0, 7)] ∧ fwdRun.srv.chain = true ∧
    forwards (fwdRun.step id (.blocks 0 7 [⟨1, 10⟩, ⟨2, 11⟩, ⟨3, 13⟩, ⟨4, 14⟩] true)).2
      = [⟨2, 11⟩, ⟨3, 13⟩] := by decide +kernel

example : ∃ tr, PRun id PWorld.init tr fwdRun :=
  ⟨_, (PRun.nil.snoc (e := .initChain) trivial).snoc (e := .status 7 13 10 true) ⟨by decide, by decide⟩⟩

end Verif.Net
