import Verif.Wire.Codecs
import Verif.Accounts.Abstract
/-!
# Specification vocabulary for genesis profiles, replays and exports
-/
namespace Nimiq.Genesis.Spec
open Wire Accounts Beserial

/-- The accounts after a list of entries has been written over `old`: the last entry of an address counts, a nil account
stands for the initial one. -/
def listed (l : List (Addr × Option Account)) (old : Addr → Account) (a : Addr) : Account :=
  match (l.filter fun e => e.1 = a).getLast? with
  | none => old a
  | some e => e.2.getD (.basic ⟨0⟩)

/-- A genesis account file: a 16 bit count, then address and account of each entry. -/
def accountFile (l : List (Addr × Account)) : Bytes :=
  Beserial.Spec.digits 2 l.length ++ (l.map fun e => e.1.val ++ accountLayout e.2).flatten

/-- Blocks pushed one after the other, each successfully and each with the state hash its header claims. -/
inductive Replayed (E : Env) : Node → List Block → Node → Prop
  | nil {n : Node} : Replayed E n [] n
  | cons {n n1 n2 : Node} {block : Block} {blocks : List Block} : Push E block n = (.ok (), n1) →
      (Node.hash E.H n1).1 = .ok block.accountsHash → Replayed E n1 blocks n2 → Replayed E n (block :: blocks) n2

/-- An archive entry holds a block: it is readable and decodes completely. -/
def Holds (entry : Option Bytes) (block : Block) : Prop :=
  ∃ buf v, entry = some buf ∧ UnmarshalFull blockTy blockTy.zero buf = .ok v ∧ Block.ofVal v = some block

/-- The number of transactions of a block. -/
def txCount (block : Block) : Nat :=
  match block.body with
  | none => 0
  | some body => body.txs.length

end Nimiq.Genesis.Spec
