import Verif.Model.Gossip

/-
C67 — gossip goes to the right place: every topic a node publishes on is routed by the receiver to the
handler of that kind of message, different subnets have different topics, and a node is subscribed to
the subnets its own validators publish on.
-/

namespace Verif.Net

theorem split_word (w : List Char) (h : '/' ∉ w) : splitSlash w = [w] := by
  induction w with
  | nil => rfl
  | cons c w ih =>
    simp only [List.mem_cons, not_or] at h
    simp only [splitSlash]
    rw [if_neg (fun e => h.1 e.symm), ih h.2]

theorem split_append (w rest : List Char) (h : '/' ∉ w) :
    splitSlash (w ++ '/' :: rest) = w :: splitSlash rest := by
  induction w with
  | nil => simp [splitSlash]
  | cons c w ih =>
    simp only [List.mem_cons, not_or] at h
    simp only [List.cons_append, splitSlash]
    rw [if_neg (fun e => h.1 e.symm), ih h.2]

theorem digits_no_slash (n : Nat) : '/' ∉ Nat.toDigits 10 n := by
  intro h
  have := Nat.isDigit_of_mem_toDigits (by decide) (by decide) h
  revert this; decide

theorem topic_shape (A F B K D L S : List Char) (hA : A = '/' :: (L ++ ['/'])) (hB : B = ['/'])
    (hD : D = '/' :: S) :
    A ++ F ++ B ++ K ++ D = [] ++ '/' :: (L ++ '/' :: (F ++ '/' :: (K ++ '/' :: S))) := by
  subst hA hB hD
  simp

theorem kind_of_topic (kind : List Char) (h : '/' ∉ kind) :
    (splitSlash (topicOf kind))[3]? = some kind := by
  have e : topicOf kind
      = [] ++ '/' :: ("leanconsensus".toList ++ '/' :: (forkDigest ++ '/' ::
          (kind ++ '/' :: "ssz_snappy".toList))) := by
    have e1 : "/leanconsensus/".toList = '/' :: ("leanconsensus".toList ++ ['/']) := by
      decide +kernel
    have e2 : "/".toList = ['/'] := by decide +kernel
    have e3 : "/ssz_snappy".toList = '/' :: "ssz_snappy".toList := by decide +kernel
    exact topic_shape _ _ _ _ _ _ _ e1 e2 e3
  rw [e, split_append [] _ (by decide), split_append "leanconsensus".toList _ (by decide +kernel),
    split_append forkDigest _ (by decide +kernel), split_append kind _ h]
  rfl

/-- Every topic this node publishes on is routed to the handler of its kind. -/
theorem C67_routes :
    routeOf blockTopic = .block ∧ routeOf aggregationTopic = .aggregation ∧
    ∀ subnet, routeOf (attestationTopic subnet) = .attestation := by
  refine ⟨by decide +kernel, by decide +kernel, ?_⟩
  intro n
  have hk := kind_of_topic ("attestation".toList ++ "_".toList ++ Nat.toDigits 10 n) (by
    intro h
    rcases List.mem_append.mp h with h | h
    · revert h; decide
    · exact digits_no_slash n h)
  unfold routeOf attestationTopic
  rw [hk]
  simp only
  rw [if_neg (by simp), if_neg (by simp), if_pos]
  simp [List.isPrefixOf]

/-- The topics of different subnets differ, and differ from the two global topics. -/
theorem C67_distinct (a b : Nat) :
    (attestationTopic a = attestationTopic b → a = b) ∧
    attestationTopic a ≠ blockTopic ∧ attestationTopic a ≠ aggregationTopic := by
  obtain ⟨h1, h2, h3⟩ := C67_routes
  refine ⟨?_, ?_, ?_⟩
  · intro h
    unfold attestationTopic topicOf at h
    simp only [List.append_assoc, List.append_cancel_left_eq] at h
    have h' := List.append_cancel_right h
    have e := congrArg (fun l => Nat.ofDigitChars 10 l 0) h'
    simpa only [Nat.ofDigitChars_toDigits (by decide : 1 < 10) (by decide : 10 ≤ 10)] using e
  · intro h
    have := h3 a
    rw [h, h1] at this
    cases this
  · intro h
    have := h3 a
    rw [h, h2] at this
    cases this

example : attestationTopic 12 = "/leanconsensus/12345678/attestation_12/ssz_snappy".toList := by
  decide +kernel
example : routeOf (attestationTopic 12) = .attestation := by decide +kernel
example : routeOf "/leanconsensus/12345678/other/ssz_snappy".toList = .unknown := by decide +kernel

/-- A node is subscribed to the subnet every one of its validators publishes on; a node that is not an
aggregator is subscribed to no other; an aggregator is subscribed also to the configured subnets, and
to at least one. -/
theorem C67_subscribed (vals : List Nat) (committees : Nat) (agg : Bool) (ids : Option (List Nat))
    (s : Nat) :
    s ∈ subscriptionSubnets vals committees agg ids ↔
      (∃ v ∈ vals, publishSubnet v committees = s) ∨
      (agg = true ∧ ∃ l, ids = some l ∧ s ∈ l) ∨
      (agg = true ∧ vals = [] ∧ (ids = none ∨ ids = some []) ∧ s = 0) := by
  unfold subscriptionSubnets publishSubnet
  cases agg with
  | false => simp
  | true =>
    match ids with
    | none =>
      cases vals with
      | nil => simp
      | cons v vs => simp [eq_comm]
    | some l =>
      cases vals with
      | nil =>
        cases l with
        | nil => simp
        | cons x xs => simp
      | cons v vs => simp [eq_comm, or_assoc]

example : subscriptionSubnets [3, 5] 4 false (some [2]) = [3, 1] := by decide
example : subscriptionSubnets [3, 5] 4 true (some [2]) = [3, 1, 2] := by decide
example : subscriptionSubnets [] 4 true none = [0] := by decide

end Verif.Net
