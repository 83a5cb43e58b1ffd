import Verif.Spec.GenesisFile
import Verif.Props.C89_Peers
import Verif.Props.C84_Always

namespace Verif.Genesis

open Verif Verif.Node Verif.Db

section
variable {H : Hash} {K : Header → Prop}

theorem descends_nz (hz : ∀ h, H.header h ≠ 0) {g : State} {r : Root} (h : Descends H K g r) : r ≠ 0 := by
  cases h <;> exact hz _

/-- A block goes back to one genesis only. -/
theorem descends_unique (hz : ∀ h, H.header h ≠ 0) (cf : ∀ a b, K a → K b → H.header a = H.header b → a = b)
    {g g' : State} (hk : K (genesisHeader H g)) (hk' : K (genesisHeader H g'))
    (h0 : g.latestBlockHeader.parentRoot = 0) (h0' : g'.latestBlockHeader.parentRoot = 0) {r : Root}
    (h : Descends H K g r) : ∀ r', r' = r → Descends H K g' r' → genesisHeader H g = genesisHeader H g' := by
  induction h with
  | genesis =>
    intro r' e h'
    cases h' with
    | genesis => exact cf _ _ hk hk' e.symm
    | block k d =>
      have := cf _ _ k hk e
      subst this
      exact absurd h0 (descends_nz hz d)
  | @block x k d ih =>
    intro r' e h'
    cases h' with
    | genesis =>
      have := cf _ _ k hk' e.symm
      subst this
      exact absurd h0' (descends_nz hz d)
    | @block y k' d' =>
      have := cf _ _ k' k e
      subst this
      exact ih _ rfl d'

theorem chain_descends (hz : ∀ s, H.state s ≠ 0) {t : Nat} {vals : List Validator} {bs : List Block} {s : State}
    (hc : Chain H (State.fromGenesis H t vals) bs s) :
    (∀ b ∈ bs, K (b.header H)) →
      Descends H K (State.fromGenesis H t vals) (tipRoot H (State.fromGenesis H t vals) bs) := by
  induction hc with
  | nil => intro _; exact .genesis
  | @cons bs s s' b hc hi ih =>
    intro hk
    refine .block (hk b List.mem_cons_self) ?_
    show Descends H K _ b.parentRoot
    rw [C03_parent_is_tip hz hc hi]
    exact ih (fun x hx => hk x (List.mem_cons_of_mem _ hx))

end

section
variable {E : Env} {t : Nat} {vals : List Validator} {bs : List Block} {a0 : State}
  {body : Option (List AggAtt)} {K : Header → Prop} {root : Root} {anchor : State} {ops : List Db.Op} {s : Store}

theorem state_descends (W : World E t vals bs a0 K)
    (I : NInv E t vals a0 body K root anchor NoX ops s) :
    ∀ (n : Nat) (r : Root) (st : State), st.slot ≤ n → stateOf root anchor ops r = some st →
      Descends E.H K (State.fromGenesis E.H t vals) r := by
  have hroot : Descends E.H K (State.fromGenesis E.H t vals) root := by
    obtain ⟨m, -, -, hz, h3, h4⟩ := I.started
    have hch := W.chain
    have hd := chain_descends (K := K) W.stateNZ W.chain W.old
    cases bs with
    | nil =>
      cases hch
      rw [h4, h3]
      exact .genesis
    | cons b bs =>
      have hh := ((chain_slots hch).2 b bs rfl).2
      have hnz : a0.latestBlockHeader.stateRoot ≠ 0 := by
        cases hch with
        | cons hc0 hi0 =>
          obtain ⟨_, _, s3, _, _, _, hr, _⟩ := importState_ok hi0
          rw [hh]
          show b.stateRoot ≠ 0
          rw [hr]
          exact W.stateNZ _
      have : anchor = a0 := by rw [h3, ← hz.resolve_left hnz]
      rw [h4, this, hh]
      exact hd
  intro n
  induction n with
  | zero =>
    intro r st hn hr
    by_cases e : r = root
    · rw [e]; exact hroot
    · obtain ⟨p, -, h2, -⟩ := I.tree.parentOf r st hr e
      omega
  | succ n ih =>
    intro r st hn hr
    by_cases e : r = root
    · rw [e]; exact hroot
    · obtain ⟨p, h1, h2, -⟩ := I.tree.parentOf r st hr e
      obtain ⟨k1, k2⟩ := I.hdrK W r _ (I.tree.own r st hr).2
      rw [← k2]
      exact .block k1 (ih _ p (by omega) h1)

theorem back_descends (W : World E t vals bs a0 K)
    (I : NInv E t vals a0 body K root anchor NoX ops s) {r x : Root} {n : Nat}
    (h : Back s.mem.db.headers r n x) : Descends E.H K (State.fromGenesis E.H t vals) x →
      Descends E.H K (State.fromGenesis E.H t vals) r := by
  induction h with
  | here e => exact id
  | @up r hd n x e b ih =>
    intro hx
    obtain ⟨k1, k2⟩ := I.hdrK W r _ e
    rw [← k2]
    exact .block k1 (ih hx)

end

end Verif.Genesis
