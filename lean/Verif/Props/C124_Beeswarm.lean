import Verif.Model.Beeswarm
import Mathlib.Data.List.Induction

/-
C124: the panel of arrival times shows the last events of every node.
-/

namespace Verif.Monitor

open Verif

/-- The blocks, attestations and aggregates that a node has reported. -/
def reported (evs : List Ev) (n : Nat) : List Ev :=
  evs.filter fun e => decide ((e.topic = .block ∨ e.topic = .attestation ∨ e.topic = .aggregate) ∧ e.node = n)

/-- The last `k` of a list. -/
def lastOf {α : Type} (k : Nat) (l : List α) : List α := l.drop (l.length - k)

/-- The newest slot of which a node of the list has reported something. -/
def newest (nodes : List Nat) : List Ev → Nat
  | [] => 0
  | e :: l =>
    if (e.topic = .block ∨ e.topic = .attestation ∨ e.topic = .aggregate) ∧ e.node ∈ nodes then
      max e.slot (newest nodes l)
    else newest nodes l

theorem newest_snoc (nodes : List Nat) (e : Ev) : ∀ l, newest nodes (l ++ [e]) =
    if (e.topic = .block ∨ e.topic = .attestation ∨ e.topic = .aggregate) ∧ e.node ∈ nodes then
      max (newest nodes l) e.slot
    else newest nodes l
  | [] => by
    show newest nodes [e] = _
    unfold newest
    split
    · show max e.slot 0 = max 0 e.slot
      omega
    · rfl
  | a :: l => by
    rw [List.cons_append]
    unfold newest
    rw [newest_snoc nodes e l]
    split <;> split <;> omega

/-- What holds of the panel in every run: a node's points are those of its events without a beginning `a`, of which all
but the points that are out of the last 2000 have left the window. -/
structure Keeps (nodes : List Nat) (ms : Int) (acts : List PAct) (s : Swarm) : Prop where
  names : s.nodes = nodes
  unit : s.slotMs = ms
  newest : s.maxSlot = newest nodes (arrived acts)
  points : ∀ n ∈ nodes, ∃ a b, ((reported (arrived acts) n).map (pointOf ms)) = a ++ b ++ s.points n ∧
    (∀ p ∈ b, s.aged p = true) ∧ (a ≠ [] → maxPoints ≤ b.length + (s.points n).length) ∧
    (s.points n).length ≤ maxPoints

theorem arrived_add (acts : List PAct) (x : PAct) : arrived (acts ++ [x]) =
    arrived acts ++ (match x with | .event e => [e] | _ => []) := by
  unfold arrived
  rw [List.filterMap_append]
  cases x <;> rfl

theorem keeps_run (nodes : List Nat) (ms : Int) (w : Nat) : ∀ acts : List PAct,
    (w :: windows acts).Pairwise (· ≥ ·) →
    Keeps nodes ms acts (srun nodes ms w acts) ∧ (srun nodes ms w acts).window ∈ w :: windows acts := by
  intro acts
  induction acts using List.reverseRecOn with
  | nil =>
    intro _
    exact ⟨⟨rfl, rfl, rfl, fun n _ => ⟨[], [], rfl, (fun p h => by cases h), (fun h => absurd rfl h), Nat.zero_le _⟩⟩,
      List.mem_cons_self ..⟩
  | append_singleton acts x ih =>
    intro hw
    have hwin : windows (acts ++ [x]) = windows acts ++ (match x with | .window n => [max 1 n] | _ => []) := by
      unfold windows
      rw [List.filterMap_append]
      cases x <;> rfl
    rw [hwin, ← List.cons_append] at hw ⊢
    obtain ⟨I, hm⟩ := ih (List.pairwise_append.1 hw).1
    have hrun : srun nodes ms w (acts ++ [x]) = (srun nodes ms w acts).act x := by
      unfold srun
      rw [List.foldl_append]
      rfl
    rw [hrun]
    generalize srun nodes ms w acts = s at *
    have harr := arrived_add acts x
    cases x with
    | event e =>
      dsimp only at harr
      show Keeps nodes ms _ (s.add e) ∧ (s.add e).window ∈ _
      unfold Swarm.add
      rw [I.names, I.unit]
      split
      · rename_i hc
        refine ⟨⟨rfl, rfl, ?_, fun n hn => ?_⟩, List.mem_append_left _ hm⟩
        · rw [harr, newest_snoc, if_pos hc, I.newest]
        obtain ⟨a, b, h1, h2, h3, h4⟩ := I.points n hn
        have haged : ∀ p ∈ b, Swarm.aged ({ s with nodes := nodes, slotMs := ms, maxSlot := max s.maxSlot e.slot } : Swarm) p = true := by
          intro p hp
          have := h2 p hp
          unfold Swarm.aged at this ⊢
          simp only [decide_eq_true_eq] at this ⊢
          omega
        by_cases hne : n = e.node
        · subst hne
          have hrep : reported (arrived (acts ++ [.event e])) e.node = reported (arrived acts) e.node ++ [e] := by
            rw [harr]
            unfold reported
            rw [List.filter_append]
            congr 1
            simp [hc.1]
          rw [hrep, List.map_append, h1]
          dsimp only
          rw [Function.update_self]
          by_cases hfull : (s.points e.node).length < maxPoints
          · refine ⟨a, b, ?_, haged, fun ha => ?_, ?_⟩
            · rw [show (s.points e.node ++ [pointOf ms e]).length - maxPoints = 0 by simp; omega, List.drop_zero]
              simp
            · have := h3 ha
              rw [show (s.points e.node ++ [pointOf ms e]).length - maxPoints = 0 by simp; omega, List.drop_zero]
              simp
              omega
            · rw [show (s.points e.node ++ [pointOf ms e]).length - maxPoints = 0 by simp; omega, List.drop_zero]
              simp
              omega
          · cases hp : s.points e.node with
            | nil => rw [hp] at hfull; exact absurd (by simp [maxPoints]) hfull
            | cons q l =>
              rw [hp, List.length_cons] at h4 hfull
              have hd : (q :: l ++ [pointOf ms e]).length - maxPoints = 1 := by simp; omega
              rw [hd]
              refine ⟨a ++ b ++ [q], [], by simp, (fun p h => by cases h), fun _ => ?_, ?_⟩
              · simp; omega
              · simp; omega
        · have hrep : reported (arrived (acts ++ [.event e])) n = reported (arrived acts) n := by
            rw [harr]
            unfold reported
            rw [List.filter_append]
            simp [Ne.symm hne]
          rw [hrep]
          refine ⟨a, b, ?_, haged, ?_, ?_⟩
          all_goals
            dsimp only
            rw [Function.update_of_ne hne]
          · exact h1
          · exact h3
          · exact h4
      · rename_i hc
        refine ⟨⟨I.names, I.unit, ?_, fun n hn => ?_⟩, List.mem_append_left _ hm⟩
        · rw [harr, newest_snoc, if_neg hc, I.newest]
        have hrep : reported (arrived (acts ++ [.event e])) n = reported (arrived acts) n := by
          rw [harr]
          unfold reported
          rw [List.filter_append]
          have : ¬ ((e.topic = .block ∨ e.topic = .attestation ∨ e.topic = .aggregate) ∧ e.node = n) :=
            fun h => hc ⟨h.1, by rw [h.2]; exact hn⟩
          simp [this]
        rw [hrep]
        exact I.points n hn
    | prune =>
      dsimp only at harr ⊢
      rw [List.append_nil] at harr ⊢
      refine ⟨⟨I.names, I.unit, by rw [harr]; exact I.newest, fun n hn => ?_⟩, hm⟩
      obtain ⟨a, b, h1, h2, h3, h4⟩ := I.points n hn
      have hsplit := List.takeWhile_append_dropWhile (p := s.aged) (l := s.points n)
      have hlen : (s.points n).length = ((s.points n).takeWhile s.aged).length + ((s.points n).dropWhile s.aged).length := by
        rw [← List.length_append, hsplit]
      refine ⟨a, b ++ (s.points n).takeWhile s.aged, ?_, fun p hp => ?_, fun ha => ?_, ?_⟩
      · rw [harr, h1]
        show _ = a ++ (b ++ (s.points n).takeWhile s.aged) ++ (s.points n).dropWhile s.aged
        rw [← List.append_assoc, List.append_assoc (a ++ b), hsplit]
      · rcases List.mem_append.1 hp with hp | hp
        · exact h2 p hp
        · exact List.all_eq_true.1 List.all_takeWhile p hp
      · have := h3 ha
        show maxPoints ≤ (b ++ (s.points n).takeWhile s.aged).length + ((s.points n).dropWhile s.aged).length
        rw [List.length_append]
        omega
      · show ((s.points n).dropWhile s.aged).length ≤ maxPoints
        omega
    | window k =>
      dsimp only at harr hw ⊢
      rw [List.append_nil] at harr
      have hle : max 1 k ≤ s.window := (List.pairwise_append.1 hw).2.2 _ hm _ (by simp)
      refine ⟨⟨I.names, I.unit, by rw [harr]; exact I.newest, fun n hn => ?_⟩,
        List.mem_append_right _ (List.mem_singleton.2 rfl)⟩
      obtain ⟨a, b, h1, h2, h3, h4⟩ := I.points n hn
      refine ⟨a, b, by rw [harr]; exact h1, fun p hp => ?_, h3, h4⟩
      have := h2 p hp
      show decide (s.maxSlot - p.slot ≥ max 1 k) = true
      unfold Swarm.aged at this
      simp only [decide_eq_true_eq] at this ⊢
      omega

/-- **C124.** For every node of the list the panel shows, in the order of arrival, the points of all its blocks,
attestations and aggregates of the last slots, at least as far as they are among its last 2000 events: nothing older
than the window, nothing twice, nothing left out, whenever the panel is tidied up.  The number of slots shown is not
raised. -/
theorem C124_points {nodes : List Nat} {ms : Int} {w : Nat} {acts : List PAct}
    (hw : (w :: windows acts).Pairwise (· ≥ ·)) (n : Nat) (hn : n ∈ nodes) :
    ∃ k ≥ 2000, (srun nodes ms w acts).drawn n =
      ((lastOf k (reported (arrived acts) n)).filter fun e =>
        decide (newest nodes (arrived acts) - e.slot < (srun nodes ms w acts).window)).map (pointOf ms) := by
  obtain ⟨I, -⟩ := keeps_run nodes ms w acts hw
  generalize srun nodes ms w acts = s at *
  obtain ⟨a, b, h1, h2, h3, h4⟩ := I.points n hn
  have hp : ∀ p, (!s.aged p) = decide (newest nodes (arrived acts) - p.slot < s.window) := by
    intro p
    unfold Swarm.aged
    rw [I.newest, ← decide_not]
    congr 1
    rw [eq_iff_iff]
    omega
  have key : ∀ k, (((lastOf k (reported (arrived acts) n)).filter fun e =>
        decide (newest nodes (arrived acts) - e.slot < s.window)).map (pointOf ms)) =
      (lastOf k (a ++ b ++ s.points n)).filter fun p => !s.aged p := by
    intro k
    rw [← h1]
    unfold lastOf
    rw [List.length_map, ← List.map_drop, List.filter_map]
    congr 1
    refine List.filter_congr fun e _ => ?_
    exact (hp (pointOf ms e)).symm
  have hb : b.filter (fun p => !s.aged p) = [] := by
    rw [List.filter_eq_nil_iff]
    intro p h
    rw [h2 p h]
    simp
  by_cases ha : a = []
  · refine ⟨max 2000 (a ++ b ++ s.points n).length, le_max_left _ _, ?_⟩
    rw [key]
    unfold lastOf
    rw [show (a ++ b ++ s.points n).length - max 2000 (a ++ b ++ s.points n).length = 0 by omega, List.drop_zero, ha,
      List.nil_append, List.filter_append, hb]
    rfl
  · refine ⟨b.length + (s.points n).length, h3 ha, ?_⟩
    rw [key]
    unfold lastOf
    rw [show (a ++ b ++ s.points n).length - (b.length + (s.points n).length) = a.length by simp,
      List.append_assoc, List.drop_left, List.filter_append, hb]
    rfl

/-- **C124, position.** An event within two slots is shown at its exact offset, a later one at the end of the second
slot; one before its slot is shown at the beginning, and marked, so that no two events whose offsets differ and lie
within the two slots, or on different sides of the beginning, look the same. -/
theorem C124_position {ms : Int} (hms : 0 ≤ ms) (e : Ev) :
    (0 ≤ e.offset → e.offset ≤ 2 * ms → (pointOf ms e).offset = e.offset ∧ (pointOf ms e).early = false) ∧
    (2 * ms < e.offset → (pointOf ms e).offset = 2 * ms ∧ (pointOf ms e).early = false) ∧
    (e.offset < 0 → (pointOf ms e).offset = 0 ∧ (pointOf ms e).early = true) := by
  unfold pointOf
  dsimp only
  refine ⟨fun h1 h2 => ⟨by omega, by simp; omega⟩, fun h => ⟨by omega, by simp; omega⟩, fun h => ⟨by omega, by simp; omega⟩⟩

/-- **C124, memory.** The panel never holds more than 2000 points per node. -/
theorem C124_memory {nodes : List Nat} {ms : Int} {w : Nat} {acts : List PAct}
    (hw : (w :: windows acts).Pairwise (· ≥ ·)) (n : Nat) (hn : n ∈ nodes) :
    ((srun nodes ms w acts).points n).length ≤ 2000 := by
  obtain ⟨a, b, -, -, -, h⟩ := (keeps_run nodes ms w acts hw).1.points n hn
  exact h

/-! ### A case -/

/-- Two nodes; an event of slot 1 leaves the window of three slots, one arrives before its slot, one too late. -/
def swarmActs : List PAct :=
  [.event ⟨0, .block, 1, 5000, 1000, some 7, none, none⟩, .event ⟨0, .attestation, 3, 11970, -30, none, some 2, none⟩,
   .event ⟨1, .block, 1, 15000, 11000, some 7, none, none⟩, .window 3, .event ⟨0, .aggregate, 4, 19000, 3000, some 9, none, none⟩,
   .prune, .event ⟨1, .block, 2, 19500, 11500, some 8, none, none⟩]

example : (5 :: windows swarmActs).Pairwise (· ≥ ·) ∧
    (srun [0, 1] 4000 5 swarmActs).drawn 0 = [⟨.attestation, 0, true, 3⟩, ⟨.aggregate, 3000, false, 4⟩] ∧
    (srun [0, 1] 4000 5 swarmActs).drawn 1 = [⟨.block, 8000, false, 2⟩] := by
  refine ⟨by decide, by decide +kernel, by decide +kernel⟩

end Verif.Monitor
