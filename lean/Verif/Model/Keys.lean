import Verif.Model.AMap
/-!
# The key manager

`crates/blockchain/src/key_manager.rs` and the secret keys of `crates/common/crypto/src/signature.rs`
81-127, as driven by the actor (`crates/blockchain/src/lib.rs` 170-176, 469, 680, 843). The XMSS
library itself is not in the repository; what is modelled of a secret key is what `signature.rs`
documents and tests (102-127, 147-183): a window of two bottom trees which slides by one tree within
the activation interval, and signing that requires the slot to be in the window. Whether a signature is
correct is a matter of `Crypto`.
-/
namespace Verif.Keys
open Verif

/-- A secret key: the number of slots of a bottom tree, the first bottom tree of the activation interval
and the one after its last, and the left one of the two that are prepared. -/
structure Key where
  width : Nat
  first : Nat
  stop : Nat
  left : Nat
  deriving DecidableEq, Repr

/-- `get_prepared_interval` (114-117). -/
def Key.interval (k : Key) : Nat × Nat := (k.left * k.width, (k.left + 2) * k.width)

/-- `is_prepared_for` (106-112). -/
def Key.prepared (k : Key) (slot : Nat) : Bool :=
  decide (k.interval.1 ≤ slot ∧ slot < k.interval.2)

/-- `advance_preparation` (119-127). -/
def Key.advance (k : Key) : Key := if k.left + 3 ≤ k.stop then { k with left := k.left + 1 } else k

/-- The loop of `advance_key` (`key_manager.rs` 152-161); `false` is the error. -/
def advanceLoop (k : Key) (slot : Nat) : Key × Bool :=
  if k.prepared slot then (k, true)
  else
    let k' := k.advance
    if h : k'.interval = k.interval then (k', false) else advanceLoop k' slot
termination_by k.stop - k.left
decreasing_by
  simp only [k', Key.advance] at h ⊢
  split at h
  next hh =>
    rw [if_pos hh]
    dsimp only
    omega
  · exact absurd rfl h

/-- `advance_key` (142-169). -/
def advanceKey (k : Key) (slot : Nat) : Key × Bool :=
  if k.prepared slot then (k, true) else advanceLoop k slot

/-- `ValidatorKeyPair` (29-32). -/
structure Pair where
  attestation : Key
  proposal : Key
  deriving DecidableEq, Repr

/-- `KeyManager` (38-40). -/
abbrev Manager := AMap Nat Pair

/-- What the actor asks of its key manager. -/
inductive Ask
  /-- `advance_keys_to` -/
  | prepare (slot : Nat)
  /-- `sign_attestation` -/
  | vote (validator slot : Nat)
  /-- `sign_block_root` -/
  | block (validator slot : Nat)
  deriving DecidableEq, Repr

/-- What comes of it. -/
inductive Reply
  | done
  | signed
  | notFound
  | exhausted
  /-- The library is asked to sign a slot that is not prepared, which it answers with a panic. -/
  | panic
  deriving DecidableEq, Repr

/-- `advance_keys_to` (53-63): failures are logged. -/
def Manager.prepare (m : Manager) (slot : Nat) : Manager :=
  m.map (fun e => (e.1, ⟨(advanceKey e.2.attestation slot).1, (advanceKey e.2.proposal slot).1⟩))

/-- The library's `sign`. -/
def Key.sign (k : Key) (slot : Nat) : Reply := if k.prepared slot then .signed else .panic

/-- `advance_key` and `sign` (99-107, 132-137). -/
def signKey (k : Key) (slot : Nat) : Key × Reply :=
  match advanceKey k slot with
  | (k, false) => (k, .exhausted)
  | (k, true) => (k, k.sign slot)

/-- `sign_attestation` (65-73, 85-116), `sign_block_root` (75-83, 118-143) and `advance_keys_to`. -/
def Manager.step (m : Manager) : Ask → Manager × Reply
  | .prepare slot => (m.prepare (slot % 2 ^ 32), .done)
  | .vote v slot =>
    match m.get? v with
    | none => (m, .notFound)
    | some p =>
      let r := signKey p.attestation (slot % 2 ^ 32)
      (m.insert v { p with attestation := r.1 }, r.2)
  | .block v slot =>
    match m.get? v with
    | none => (m, .notFound)
    | some p =>
      let r := signKey p.proposal (slot % 2 ^ 32)
      (m.insert v { p with proposal := r.1 }, r.2)

/-- A sequence of requests. -/
def Manager.run (m : Manager) : List Ask → Manager × List Reply
  | [] => (m, [])
  | a :: as => ((m.step a).1.run as |>.1, (m.step a).2 :: ((m.step a).1.run as).2)

end Verif.Keys
