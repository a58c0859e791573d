import Verif.Wire.Model
import Mathlib.Data.FinEnum
import Mathlib.Data.Fintype.Vector
import Mathlib.Algebra.BigOperators.Group.Finset.Basic
/-!
# Specification vocabulary for the accounts

Totals over all addresses and sums over transactions, as plain natural numbers.
-/
namespace Nimiq.Accounts.Spec
open Wire

/-- There are finitely many addresses. -/
theorem addr_finite : Finite Addr := Finite.of_fintype (List.Vector UInt8 20)

noncomputable instance : Fintype Addr := @Fintype.ofFinite Addr addr_finite

/-- Funds of an account. -/
def funds : Account → Nat
  | .basic a => a.value.toNat
  | .vesting a => a.value.toNat
  | .htlc a => a.value.toNat

/-- Money in existence: the sum of the balances of all `2^160` addresses. -/
noncomputable def total (acc : Addr → Account) : Nat := ∑ a : Addr, funds (acc a)

/-- Value and fee of a transaction as numbers. -/
def value (tx : Tx) : Nat := tx.amount.1.toNat
def fee (tx : Tx) : Nat := tx.amount.2.toNat

/-- The sum of the fees of the transactions whose sender is not a basic account. -/
def contractFees (H : Bytes → Hash32) (acc : Addr → Account) (txs : List Tx) : Nat :=
  (txs.map fun tx => if (acc (tx.getSender H).1).type = 0 then 0 else fee tx).sum

/-- The sum of the values sent from an address. -/
def sentValue (H : Bytes → Hash32) (txs : List Tx) (a : Addr) : Nat :=
  ((txs.filter fun tx => (tx.getSender H).1 = a).map value).sum

/-- The sum of the values and fees of the transactions sent from an address. -/
def sentWithFees (H : Bytes → Hash32) (txs : List Tx) (a : Addr) : Nat :=
  ((txs.filter fun tx => (tx.getSender H).1 = a).map fun tx => value tx + fee tx).sum

/-- The sum of the values sent to an address. -/
def receivedValue (txs : List Tx) (a : Addr) : Nat :=
  ((txs.filter fun tx => tx.getRecipient.1 = a).map value).sum

/-- The sum of the fees. -/
def fees (txs : List Tx) : Nat := (txs.map fee).sum

end Nimiq.Accounts.Spec
