import Verif.Model.Aggregation
import Mathlib.Data.List.Dedup
import Mathlib.Tactic.ByContra
import Mathlib.Data.Nat.ModEq
/-!
# C47: the early-aggregation trigger
-/
namespace Verif.Build
open Verif

/-- The validators expected to vote on the subscribed subnets. -/
def expectedVoters (validators committees : Nat) (subnets : List Nat) : List Nat :=
  (List.range validators).filter (fun v => decide (v % committees ∈ subnets))

/-! ## Helper lemmas -/

theorem length_filter_mod (c s : Nat) (hc : 0 < c) (hs : s < c) : ∀ (n : Nat),
    ((List.range n).filter (fun v => decide (v % c = s))).length
      = n / c + if s < n % c then 1 else 0
  | 0 => by simp
  | n + 1 => by
    rw [List.range_succ, List.filter_append, List.length_append, length_filter_mod c s hc hs n]
    have hm := Nat.mod_lt n hc
    have hdiv : (n + 1) / c = n / c + if c ∣ n + 1 then 1 else 0 := Nat.succ_div ..
    by_cases hd : c ∣ n + 1
    · have h0 : (n + 1) % c = 0 := Nat.mod_eq_zero_of_dvd hd
      have h1 : n % c = c - 1 := by
        have : (n % c + 1) % c = 0 := by rw [Nat.mod_add_mod]; exact h0
        by_contra hne
        rw [Nat.mod_eq_of_lt (by omega)] at this
        omega
      rw [hdiv, if_pos hd, h0, h1]
      by_cases he : s = c - 1
      · subst he; simp [h1]
      · rw [if_pos (by omega)]
        have : ¬ n % c = s := by omega
        simp [this]
    · have h0 : (n + 1) % c = n % c + 1 := by
        have h2 : (n + 1) % c ≠ 0 := fun h => hd (Nat.dvd_of_mod_eq_zero h)
        have : (n % c + 1) % c = (n + 1) % c := by rw [Nat.mod_add_mod]
        by_cases hlt : n % c + 1 < c
        · rw [← this, Nat.mod_eq_of_lt hlt]
        · exfalso; apply h2; rw [← this, show n % c + 1 = c by omega, Nat.mod_self]
      rw [hdiv, if_neg hd, h0]
      by_cases he : n % c = s
      · simp [he]
      · have : (s < n % c + 1) ↔ s < n % c := by omega
        simp [he, this]

theorem length_filter_mem (n c : Nat) (hc : 0 < c) : ∀ (subs : List Nat), subs.Nodup →
    ((List.range n).filter (fun v => decide (v % c ∈ subs))).length =
      ((subs.filter (fun s => decide (s < c))).map (fun s =>
        n / c + if s < n % c then 1 else 0)).sum
  | [], _ => by simp
  | s :: subs, hn => by
    obtain ⟨h1, h2⟩ := List.nodup_cons.1 hn
    have ih := length_filter_mem n c hc subs h2
    have split : ∀ (l : List Nat), (l.filter (fun v => decide (v % c ∈ s :: subs))).length =
        (l.filter (fun v => decide (v % c = s))).length +
        (l.filter (fun v => decide (v % c ∈ subs))).length := by
      intro l
      induction l with
      | nil => rfl
      | cons a l ihl =>
        by_cases ha : a % c = s
        · have hb : a % c ∉ subs := by rw [ha]; exact h1
          simp only [List.filter_cons, List.mem_cons, ha, true_or, decide_true, if_true,
            List.length_cons] at ihl ⊢
          simp only [ihl, h1, decide_false, Bool.false_eq_true, if_false]
          omega
        · simp only [List.filter_cons, List.mem_cons, ha, false_or, decide_false,
            Bool.false_eq_true, if_false] at ihl ⊢
          by_cases hb : a % c ∈ subs
          · simp only [hb, decide_true, if_true, List.length_cons, ihl]; omega
          · simp only [hb, decide_false, Bool.false_eq_true, if_false, ihl]
    rw [split, ih, List.filter_cons]
    by_cases hs : s < c
    · rw [if_pos (by simpa using hs), List.map_cons, List.sum_cons, length_filter_mod c s hc hs]
    · rw [if_neg (by simpa using hs)]
      have : (List.range n).filter (fun v => decide (v % c = s)) = [] := by
        apply List.filter_eq_nil_iff.2
        intro v _
        have := Nat.mod_lt v hc
        simp; omega
      rw [this]; simp

/-! ## The theorems -/

/-- The threshold is two thirds, rounded up, of the validators whose index modulo the committee
count is a subscribed subnet. -/
theorem C47_threshold (validators committees : Nat) (subnets : List Nat) (hn : subnets.Nodup)
    (hc : committees ≠ 0) :
    let e := (expectedVoters validators committees subnets).length
    2 * e ≤ 3 * minGroupSigs validators committees subnets ∧
    (∀ k, 2 * e ≤ 3 * k → minGroupSigs validators committees subnets ≤ k) ∧
    minGroupSigs validators committees subnets ≤ e := by
  simp only
  unfold expectedVoters minGroupSigs
  rw [length_filter_mem validators committees (by omega) subnets hn, if_neg hc]
  have key : ∀ e : Nat, 2 * e ≤ 3 * ((2 * e + 2) / 3) ∧
      (∀ k, 2 * e ≤ 3 * k → (2 * e + 2) / 3 ≤ k) ∧ (2 * e + 2) / 3 ≤ e :=
    fun e => ⟨by omega, fun k hk => by omega, by omega⟩
  exact key _

/-- When a session starts early: the node aggregates, the time is in the last 600 ms before the
slot's interval 2, no session was started for the slot yet, and one message of the slot already has
signatures of two thirds of the (at least one) expected voters. -/
theorem C47_trigger (enabled : Bool) (genesis now : Nat) (current : Option Nat)
    (maxGroup : Nat → Nat) (validators committees : Nat) (subnets : List Nat) (hn : subnets.Nodup)
    (slot : Nat) :
    earlyStart enabled genesis now current maxGroup validators committees subnets = some slot ↔
      enabled = true ∧
      genesis + slot * 4000 + 1000 ≤ now ∧ now < genesis + slot * 4000 + 1600 ∧
      current ≠ some slot ∧ committees ≠ 0 ∧
      0 < (expectedVoters validators committees subnets).length ∧
      2 * (expectedVoters validators committees subnets).length ≤ 3 * maxGroup slot := by
  unfold earlyStart
  cases enabled with
  | false => simp
  | true =>
  simp only [not_true_eq_false, if_false, true_and]
  by_cases hg : now < genesis
  · rw [if_pos hg]
    constructor
    · intro h; cases h
    · intro h; omega
  rw [if_neg hg]
  have hw : earlyWindow = 600 := rfl
  rw [hw]
  by_cases hc : committees = 0
  · have h0 : minGroupSigs validators committees subnets = 0 := by
      unfold minGroupSigs; rw [if_pos hc]
    rw [h0]
    constructor
    · intro h
      split at h
      · cases h
      split at h
      · cases h
      simp at h
    · intro h; exact absurd hc h.2.2.2.1
  obtain ⟨t1, t2, t3⟩ := C47_threshold validators committees subnets hn hc
  generalize (expectedVoters validators committees subnets).length = e at t1 t2 t3 ⊢
  generalize minGroupSigs validators committees subnets = k at t1 t2 t3 ⊢
  constructor
  · intro h
    split at h
    · cases h
    next h1 =>
    split at h
    · cases h
    next h2 =>
    split at h
    · cases h
    next h3 =>
    have h := Option.some.inj h
    rw [h] at h2 h3
    have hd := Nat.div_add_mod (now - genesis) 4000
    rw [h] at hd
    refine ⟨by omega, by omega, h2, hc, by omega, by omega⟩
  · rintro ⟨a1, a2, a3, -, a5, a6⟩
    have hd : (now - genesis) / 4000 = slot := by omega
    have hm : (now - genesis) % 4000 = now - genesis - slot * 4000 := by omega
    rw [hd, hm, if_neg (by omega), if_neg a3, if_neg]
    have := t2 _ a6
    omega

/-- The slot an event would start a session for. -/
def SessEvent.slot (genesis : Nat) : SessEvent → Nat
  | .check _ now _ _ _ => (now - genesis) / 4000
  | .tick slot _ _ => slot

/-- One session per slot: as long as the clock does not run backwards, the installed sessions have
strictly increasing slots. -/
theorem C47_once_per_slot (genesis committees : Nat) (subnets : List Nat) (evs : List SessEvent)
    (hmono : (evs.map (SessEvent.slot genesis)).Pairwise (· ≤ ·)) :
    (sessRun genesis committees subnets none evs).Pairwise (· < ·) := by
  have start : ∀ {en now cur mg n slot},
      earlyStart en genesis now cur mg n committees subnets = some slot →
      slot = (now - genesis) / 4000 ∧ cur ≠ some slot := by
    intro en now cur mg n slot h
    unfold earlyStart at h
    split at h
    · cases h
    split at h
    · cases h
    simp only at h
    split at h
    · cases h
    split at h
    · cases h
    next h2 =>
    split at h
    · cases h
    cases h
    exact ⟨rfl, h2⟩
  have step : ∀ (cur : Option Nat) (e : SessEvent),
      sessStep genesis committees subnets cur e = (cur, none) ∨
      cur ≠ some (e.slot genesis) ∧ (sessStep genesis committees subnets cur e = (none, none) ∨
        sessStep genesis committees subnets cur e =
          (some (e.slot genesis), some (e.slot genesis))) := by
    intro cur e
    cases e with
    | check en now mg n jobs =>
      unfold sessStep
      simp only
      cases h : earlyStart en genesis now cur mg n committees subnets with
      | none => exact .inl rfl
      | some slot =>
        obtain ⟨rfl, h2⟩ := start h
        cases jobs
        · exact .inr ⟨h2, .inl rfl⟩
        · exact .inr ⟨h2, .inr rfl⟩
    | tick slot en jobs =>
      unfold sessStep
      simp only
      split
      · exact .inl rfl
      next h =>
        cases jobs
        · exact .inr ⟨fun hc => h (.inr hc), .inl rfl⟩
        · exact .inr ⟨fun hc => h (.inr hc), .inr rfl⟩
  have gen : ∀ (evs : List SessEvent) (cur last : Option Nat),
      (evs.map (SessEvent.slot genesis)).Pairwise (· ≤ ·) →
      (∀ hi, last = some hi → (cur = some hi ∧ ∀ e ∈ evs, hi ≤ e.slot genesis) ∨
        ∀ e ∈ evs, hi < e.slot genesis) →
      (sessRun genesis committees subnets cur evs).Pairwise (· < ·) ∧
      ∀ x ∈ sessRun genesis committees subnets cur evs, ∀ hi, last = some hi → hi < x := by
    intro evs
    induction evs with
    | nil => intro cur last _ _; exact ⟨.nil, by simp [sessRun]⟩
    | cons e evs ih =>
      intro cur last hm hl
      rw [List.map_cons, List.pairwise_cons] at hm
      have hle : ∀ e' ∈ evs, e.slot genesis ≤ e'.slot genesis :=
        fun e' he' => hm.1 _ (List.mem_map_of_mem he')
      unfold sessRun
      rcases step cur e with h | ⟨hne, h | h⟩ <;> rw [h]
      · simp only [Option.toList_none, List.nil_append]
        refine ih cur last hm.2 (fun hi hh => ?_)
        rcases hl hi hh with ⟨a, b⟩ | b
        · exact .inl ⟨a, fun e' he' => b e' (List.mem_cons_of_mem _ he')⟩
        · exact .inr (fun e' he' => b e' (List.mem_cons_of_mem _ he'))
      · simp only [Option.toList_none, List.nil_append]
        refine ih none last hm.2 (fun hi hh => .inr (fun e' he' => ?_))
        rcases hl hi hh with ⟨a, b⟩ | b
        · have h1 := b e List.mem_cons_self
          have h2 := hle e' he'
          have h3 : hi ≠ e.slot genesis := fun hc => hne (by rw [a, hc])
          omega
        · exact b e' (List.mem_cons_of_mem _ he')
      · simp only [Option.toList_some, List.singleton_append]
        obtain ⟨i1, i2⟩ := ih (some (e.slot genesis)) (some (e.slot genesis)) hm.2
          (fun hi hh => by cases hh; exact .inl ⟨rfl, hle⟩)
        have hlt : ∀ hi, last = some hi → hi < e.slot genesis := by
          intro hi hh
          rcases hl hi hh with ⟨a, b⟩ | b
          · have h1 := b e List.mem_cons_self
            have h3 : hi ≠ e.slot genesis := fun hc => hne (by rw [a, hc])
            omega
          · exact b e List.mem_cons_self
        refine ⟨List.pairwise_cons.2 ⟨fun x hx => i2 x hx _ rfl, i1⟩, fun x hx hi hh => ?_⟩
        rcases List.mem_cons.1 hx with rfl | hx
        · exact hlt hi hh
        · exact Nat.lt_trans (hlt hi hh) (i2 x hx _ rfl)
  exact (gen evs none none hmono (by simp)).1

/-! ## Examples -/

/-- Ten validators on four subnets: subnets 1 and 3 have 3 + 2, so four signatures are needed. -/
example : expectedVoters 10 4 [1, 3] = [1, 3, 5, 7, 9] ∧ minGroupSigs 10 4 [1, 3] = 4 := by decide
example : earlyStart true 5000 (5000 + 7 * 4000 + 1000) (some 6) (fun _ => 4) 10 4 [1, 3] = some 7 := by
  decide
example : earlyStart true 5000 (5000 + 7 * 4000 + 999) (some 6) (fun _ => 4) 10 4 [1, 3] = none := by
  decide
example : sessRun 0 1 [0] none [.check true 1100 (fun _ => 3) 4 true, .tick 0 true true,
    .check true 5100 (fun _ => 3) 4 false, .tick 1 true true] = [0, 1] := by decide

end Verif.Build
