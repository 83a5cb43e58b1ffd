import Verif.Model.GenesisFile
import Verif.Spec.Store

/-
How keys are written, and what it means that a block goes back to a genesis.
-/

namespace Verif.Genesis

open Verif Verif.Node
open Verif.Net (Bytes)

/-- Digit number `n`, in lower case. -/
def digit (n : Nat) : Char := if n < 10 then Char.ofNat (48 + n) else Char.ofNat (87 + n)

/-- Bytes in hexadecimal, in lower case. -/
def hexText (b : Bytes) : List Char := b.flatMap (fun x => [digit (x.toNat / 16), digit (x.toNat % 16)])

/-- `A`-`F` in lower case. -/
def lower (c : Char) : Char := if 65 ≤ c.toNat ∧ c.toNat ≤ 70 then Char.ofNat (c.toNat + 32) else c

/-- `s` is a way to write the 52 bytes `b`: in hexadecimal in either case, with or without `0x`. -/
def KeyText (s : List Char) (b : Bytes) : Prop :=
  b.length = 52 ∧ ∃ l, (s = l ∨ s = '0' :: 'x' :: l) ∧ l.map lower = hexText b

/-- `r` is the root of genesis `g` or of a block that goes back to it, parent by parent, through headers of `K`. -/
inductive Descends (H : Hash) (K : Header → Prop) (g : State) : Root → Prop
  | genesis : Descends H K g (H.header (genesisHeader H g))
  | block {h : Header} : K h → Descends H K g h.parentRoot → Descends H K g (H.header h)

/-- The headers known to two nodes, each of its own network. -/
def Either (H : Hash) (g g' : State) (bs bs' : List Block) (evs evs' : List Event) (h : Header) : Prop :=
  Known H g bs evs h ∨ Known H g' bs' evs' h

end Verif.Genesis
