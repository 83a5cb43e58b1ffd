import Verif.Lemmas.LateRun
/-!
# C102: honest nodes do not finalize different branches, however late messages are
-/
namespace Verif.Node
open Verif Verif.Db Verif.Sync Verif.Buffers

section
variable {ι : Type} {X : Crypto} {H : Hash} {m : ι → Site} {t : Nat} {vals : List Validator} {s : Nat}
  {N : ι → VNode} {L : ι → List Signed}

/-- A network whose messages arrive in time is one whose messages may be late. -/
theorem Fleet.late (h : Fleet X H m t vals s N L) :
    ∃ O, Late X H m t vals (5 * s + 1) N L O := by
  induction h with
  | @start a w N l gate init time begins =>
    cases begins with
    | @mk N1 _ _ e b1 r1 b2 =>
    refine ⟨_, .next (o := fun _ => []) (.start gate init) (fun i => (time i).publication) b1 ?_ ?_ b2⟩
    · exact ⟨rfl, rfl⟩
    · intro i x hx
      obtain ⟨j, v, r, sb, -, h⟩ := r1.sent i x hx
      cases h
  | @next s w w' N N' N2 L l l' h time ends time' begins ih =>
    obtain ⟨O, h⟩ := ih
    cases ends with
    | @mk N1 N2 N3 N4 N5 N6 _ l1 l3 l6 l7 o e e' b1 r1 b2 b3 b4 r2 b5 b6 b7 =>
    cases begins with
    | @mk N8 _ _ e'' b8 r3 b9 =>
    have q : ∀ j, j < 5 → (5 * s + j) % 5 = j := fun j hj => by omega
    have s1 := Late.next (e := e) (o := fun _ => []) h (fun i => (time i).attestation) b1
      (by rw [q 1 (by omega), if_neg (by omega)]; exact ⟨rfl, rfl⟩)
      (fun i x hx => by
        obtain ⟨j, v, d, sig, rfl, hm⟩ := r1.sent i x hx
        exact .vote (j := j) (List.mem_append_right _ hm)) b2
    have s2 := Late.next (e := e') (o := o) s1 (fun i => (time i).aggregation) b3
      (by
        rw [q 2 (by omega), if_pos rfl, show (5 * s + 1 + 1) / 5 = s by omega]
        exact b4)
      (fun i x hx => by
        obtain ⟨j, d, a, rfl, hm⟩ := r2.sent i x hx
        exact .aggregate (j := j) (List.mem_append_right _ hm)) b5
    have s3 := Late.next (e := fun _ => []) (o := fun _ => []) s2 (fun i => (time i).safeTarget) b6
      (by rw [q 3 (by omega), if_neg (by omega)]; exact ⟨rfl, rfl⟩)
      (fun i x hx => by cases hx) (fun i => rfl)
    have s4 := Late.next (e := fun _ => []) (o := fun _ => []) s3 (fun i => (time i).endOfSlot) b7
      (by rw [q 4 (by omega), if_neg (by omega)]; exact ⟨rfl, rfl⟩)
      (fun i x hx => by cases hx) (fun i => rfl)
    have s5 := Late.next (e := e'') (o := fun _ => []) s4 (fun i => (time' i).publication) b8
      (by rw [if_neg (by omega)]; exact ⟨rfl, rfl⟩)
      (fun i x hx => by
        obtain ⟨j, v, r, sb, rfl, hm⟩ := r3.sent i x hx
        refine .block (j := j) (v := v) (s := s + 1) (r := r) (by omega) (List.mem_append_left _ ?_)
        simpa only [List.append_assoc] using hm) b9
    have e1 : 5 * s + 1 + 1 + 1 + 1 + 1 + 1 = 5 * (s + 1) + 1 := by omega
    rw [e1] at s5
    simp only [List.append_assoc] at s5 ⊢
    exact ⟨_, s5⟩

/-- **C102, when messages are in time.** The nodes of a punctual network never finalize different
branches: they finalize the same blocks.
Missing: late messages, where it is false (`C102_late_false`). -/
theorem C102_punctual_partial (M : Manned X H m vals) (hv : 2 ≤ vals.length)
    (hv' : vals.length ≤ 2048) (h : Fleet X H m t vals s N L) (hL : AllClean H t vals L)
    (hs : s ≤ historicalRootsLimit) : Agree H (State.fromGenesis H t vals) N L := by
  intro i j
  rw [((C98_advances_partial M hv hv' h hL hs).2.1 i j).2.2]
  exact .inl .self

end

namespace LateRun
open Desc

/-- Who gets what and when: slot, interval and node. -/
def forkPlan (k : Nat) (i : Fin 3) : List Desc :=
  match k / 5, k % 5, i.val with
  | 1, 0, 0 => [block 1]
  | 3, 0, 1 => [block 3]
  | 4, 0, 0 => [block 4]
  | 6, 0, 1 => [block 6]
  | 7, 0, 0 => [block 7]
  | 7, 1, 1 => [vote 0 7]
  | 8, 0, 0 => [block 2, block 5, block 8]
  | 9, 0, 2 => [block 9]
  | 9, 1, 2 => [vote 0 9]
  | 9, 2, 0 => [agg 2 9]
  | 11, 0, 0 => [block 11]
  | 12, 0, 2 => [block 12]
  | 12, 0, 0 => [block 10]
  | 12, 1, 1 => [vote 0 12]
  | 12, 1, 2 => [vote 0 10]
  | 14, 0, 0 => [block 14]
  | 15, 0, 2 => [block 15]
  | 17, 0, 0 => [block 17]
  | 17, 1, 2 => [vote 0 17]
  | 17, 2, 0 => [agg 2 17]
  | _, _, _ => []

/-- Node 0 has finalized slot 9, node 1 slot 3, and these blocks are of different branches. -/
def forked (S : Net) : Bool :=
  let a := S.nodes.a.actor.store.mem.db.finalized
  let b := S.nodes.b.actor.store.mem.db.finalized
  decide (a.slot = 9) && decide (b.slot = 3) && apart S.links a.root b.root && apart S.links b.root a.root

set_option maxRecDepth 100000 in
theorem forkPlan_forks :
    (match run (fun i => decide (i ≠ 0)) forkPlan 90 with | .ok S => forked S | .error _ => false) =
      true := by decide +kernel

end LateRun

open LateRun Verif.Witness in
/-- **C102 is false.** Three nodes with a validator each, all following the protocol, clocks in step,
no node ever restarted, and hash functions without collisions: after 18 slots two of the nodes have
finalized blocks of different branches. All that happened is that some messages were late or lost. -/
theorem C102_late_false :
    ∃ (X : Crypto) (H : Hash) (m : Fin 3 → Site) (vals : List Validator) (N : Fin 3 → VNode)
      (L : Fin 3 → List Signed) (O : Fin 3 → List (AttData × Agg)),
      vals.length = 3 ∧ Manned X H m vals ∧ Ideal H ∧ Late X H m 0 vals 90 N L O ∧
      ¬ Agree H (State.fromGenesis H 0 vals) N L := by
  obtain ⟨S, h, hp⟩ := run_check forkPlan_forks
  refine ⟨_, _, _, _, _, _, _, rfl, site_manned ⟨1, rfl⟩, lateHash_ideal, run_late h, fun hA => ?_⟩
  simp only [forked, Bool.and_eq_true] at hp
  rcases hA 0 1 with hA | hA
  · exact apart_sound hp.1.2 hA
  · exact apart_sound hp.2 hA

end Verif.Node
