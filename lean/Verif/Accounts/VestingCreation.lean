import Verif.Accounts.ForeignTx
/-!
# C136: `wire.VestingCreation`

tx_data.go exports one type, by its name the data of a transaction that creates a vesting contract.
-/
namespace Nimiq.Accounts
open Beserial Beserial.Spec Wire Spec Float64

/-- tx_data.go:3-5 `VestingCreation` -/
abbrev VestingCreation.ty : Ty := .struct (.cons none (.byteArr 20) .nil)

/-- `VestingCreation{Beneficiary: a}` -/
def VestingCreation.of (a : Addr) : VestingCreation.ty.Val := (a, ())

/-- **C136**, as a type for the codec it works: its bytes are the beneficiary, and they are read back. -/
theorem C136_bytes_partial (a : Addr) : Marshal [] VestingCreation.ty (VestingCreation.of a) = .ok a.val ∧
    UnmarshalFull VestingCreation.ty VestingCreation.ty.zero a.val = .ok (VestingCreation.of a) := by
  have he : enc VestingCreation.ty {} (VestingCreation.of a) = some (a.val ++ []) := rfl
  rw [List.append_nil] at he
  have hg : Good VestingCreation.ty := ⟨trivial, trivial⟩
  obtain ⟨h1, -, h3⟩ := C29_round_trip _ hg _ _ he
  refine ⟨h1, ?_⟩
  obtain ⟨h4, -⟩ := h3 VestingCreation.ty.zero []
  rw [List.append_nil] at h4
  unfold UnmarshalFull
  rw [h4]
  simp

/-- What it would have to be: the beneficiary followed by at least the number of blocks per step. -/
theorem C136_accepted_data (t : ExtendedTx) (height : UInt32) (bal : UInt64) (x : Account)
    (h : initVesting (.extended t) height bal = .ok x) : 24 ≤ t.data.length := by
  obtain ⟨c, rfl, hv⟩ := (C63_data_iff t height bal x).1.mp h
  have l20 : ∀ o : Addr, o.val.length = 20 := fun o => o.property
  clear h
  generalize t.data = d at *
  cases hv <;> simp [digits_length, l20]

/-- **C136 is violated**: no state accepts a block with a vesting creation whose data are a marshalled `VestingCreation`. -/
theorem C136_refused_violated {E : Env} {n : Node} (hn : Reach E n) (block : Block) (body : Body) (hb : block.body = some body)
    (t : ExtendedTx) (ht : .extended t ∈ body.txs) (hf : t.flags &&& 0x01 ≠ 0) (a : Addr)
    (hd : Marshal [] VestingCreation.ty (VestingCreation.of a) = .ok t.data) (n' : Node) :
    Push E block n ≠ (.ok (), n') := by
  intro h
  rw [(C136_bytes_partial a).1] at hd
  simp only [Out.ok.injEq] at hd
  obtain ⟨-, t', x, he, hnc⟩ := C63_accepted hn block body hb h _ ht hf
  cases he
  have hl := (C63_lengths t 0 x hnc).1
  rw [← hd] at hl
  have : a.val.length = 20 := a.property
  omega

/-- Such blocks: the creation of a vesting contract in the block of `Witness.lean`, with these data. -/
example (E : Env) : ∃ t : ExtendedTx, ∃ body : Body, .extended t ∈ body.txs ∧ t.flags &&& 0x01 ≠ 0 ∧
    Marshal [] VestingCreation.ty (VestingCreation.of (Witness.addr 7)) = .ok t.data ∧ Reach E (Witness.node E) :=
  ⟨⟨(Witness.addr 7).val, Witness.addr 1, 0, Witness.addr 6, 1, 40, 3, 1, 1, 1, []⟩, ⟨Witness.addr 3, [.extended _], []⟩,
    List.mem_singleton.mpr rfl, by show (1 : UInt8) &&& 1 ≠ 0; decide, (C136_bytes_partial _).1, Witness.node_reach E⟩

end Nimiq.Accounts
