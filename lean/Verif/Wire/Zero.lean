import Verif.Wire.Reuse
import Verif.Beserial.Zero
/-!
# Zero values of the wire types (C99)
-/
namespace Nimiq.Wire
open Beserial Beserial.Spec

/-- C99. Every custom type of the package encodes its zero value as zero bytes; the two interfaces (`WrapTx`,
`WrapAccount`) panic and a peer address fails (C48). -/
theorem C99_custom_zero : ZeroOk (.custom bitSet) ∧ ZeroOk (.custom hash) ∧ ZeroOk (.custom merklePath) ∧
    ZeroOk (.custom interlink) ∧ ZeroOk (.custom netAddress) ∧ ZeroOk (.custom ping) ∧ ZeroOk (.custom emptyMessage) ∧
    ZeroOk (.custom wrapTx) ∧ ZeroOk (.custom wrapAccount) ∧ ZeroOk (.custom peerAddress) := by
  refine ⟨?_, ?_, ?_, ?_, ?_, ?_, ?_, ?_, ?_, ?_⟩ <;> intro b b' h
  · cases h; exact ⟨1, by simp [bitSet]⟩
  · cases h; exact ⟨33, by simp [hash, BArr.zero, List.replicate_succ]⟩
  · cases h; exact ⟨1, by simp [merklePath]⟩
  · cases h; exact ⟨1, by simp [interlink]⟩
  · cases h; exact ⟨1, by simp [netAddress]⟩
  · cases h; exact ⟨4, rfl⟩
  · cases h; exact ⟨0, by simp⟩
  · cases h
  · cases h
  · have := (C48_violated peerAddress.zero b []).1
    change PeerAddress.enc peerAddress.zero b = .ok b' at h
    rw [this] at h; cases h

set_option maxRecDepth 20000 in
/-- C99. The fixed-size structs: a fresh header is 146 zero bytes, a fresh basic transaction 137 and so on, and a block
148, and zero bytes decode to the zero value (of the whole block, if `PrevHash` was zero before, see C98). -/
theorem C99_wire_zero (rest : Bytes) :
    (Marshal [] headerTy headerTy.zero = .ok (List.replicate 146 0) ∧
      ∀ prev, Unmarshal headerTy prev (List.replicate 146 0 ++ rest) = .ok headerTy.zero rest) ∧
    (Marshal [] BasicTx.ty BasicTx.ty.zero = .ok (List.replicate 137 0) ∧
      ∀ prev, Unmarshal BasicTx.ty prev (List.replicate 137 0 ++ rest) = .ok BasicTx.ty.zero rest) ∧
    (Marshal [] ExtendedTx.ty ExtendedTx.ty.zero = .ok (List.replicate 68 0) ∧
      ∀ prev, Unmarshal ExtendedTx.ty prev (List.replicate 68 0 ++ rest) = .ok ExtendedTx.ty.zero rest) ∧
    (Marshal [] bodyTy bodyTy.zero = .ok (List.replicate 25 0) ∧
      ∀ prev, Unmarshal bodyTy prev (List.replicate 25 0 ++ rest) = .ok bodyTy.zero rest) ∧
    Marshal [] blockTy blockTy.zero = .ok (List.replicate 148 0) := by
  refine ⟨⟨rfl, fun prev => ?_⟩, ⟨rfl, fun prev => ?_⟩, ⟨rfl, fun prev => ?_⟩, ⟨rfl, fun prev => ?_⟩, rfl⟩
  · exact ((C29_round_trip headerTy header_good headerTy.zero (List.replicate 146 0) rfl).2.2 prev rest).1
  · exact ((C29_round_trip BasicTx.ty basicTx_good BasicTx.ty.zero (List.replicate 137 0) rfl).2.2 prev rest).1
  · exact ((C29_round_trip ExtendedTx.ty extendedTx_good ExtendedTx.ty.zero (List.replicate 68 0) rfl).2.2 prev rest).1
  · exact ((C29_round_trip bodyTy body_good bodyTy.zero (List.replicate 25 0) rfl).2.2 prev rest).1
end Nimiq.Wire
