import Verif.Beserial.IntSize
import Verif.Wire.Messages
/-!
# C144: MarshalMessage on platforms of different `int`

`MarshalMessage` makes a buffer of `8 + Size(m)` bytes before it encodes.
-/
namespace Nimiq.Wire
open Beserial Beserial.Spec

/-- size.go:11-19 `Size` of any argument, in an `int` of `w` bits -/
def sizeArgAt (w : Nat) : Arg → Out Int
  | .pointer _ none => .ok 0
  | .pointer t (some v) => SizeAt w t v
  | .nilable true => .ok 0
  | .nilable false => .err .invalidUnmarshal
  | .plain => .panic

/-- msg_types.go:108-117 `MarshalMessage`, in an `int` of `w` bits: `make([]byte, 8+size)` panics if the sum is negative,
`buf[:8]` and `PutUint64` panic if it is less than 8. That the buffer fits into memory is assumed. -/
def MarshalMessageAt (w : Nat) (m : Msg) : Out Bytes :=
  match sizeArgAt w m.arg with
  | .ok size => if wrap w (8 + size) < 8 then .panic else marshalArg (putBE 8 m.type.toNat) m.arg
  | .err e => .err e
  | .panic => .panic

theorem sizeArgAt_eq (w : Nat) (a : Arg) : sizeArgAt w a = wrapped w (sizeArg a) := by
  cases a with
  | pointer t v =>
    cases v with
    | none => simp [sizeArgAt, sizeArg, wrapped, wrap_zero]
    | some v => exact valueSizeAt_eq w t v {}
  | nilable b => cases b <;> simp [sizeArgAt, sizeArg, wrapped, wrap_zero]
  | plain => rfl

theorem locators_size (l : List (BArr 32)) : ∀ n, l.foldlM (fun total x => do
    return total + (← valueSize (.byteArr 32) x {})) n = Out.ok (n + 32 * l.length) := by
  induction l with
  | nil => intro n; simp
  | cons x l ih =>
    intro n
    rw [List.foldlM_cons]
    simp only [valueSize, Out.bind_ok, Out.pure_eq] at ih ⊢
    rw [ih, List.length_cons]
    congr 1; omega

theorem getBlocks_size_eq (v : getBlocksTy.Val) : Size getBlocksTy v = .ok (5 + 32 * v.1.length) := by
  have hk := locators_size v.1 2
  simp only [valueSize] at hk
  simp only [Size, getBlocksTy, valueSize, fieldsSize, fieldTags_u16, fieldTags_none, Ty.numSize, LenKind.size, hk,
    NumKind.size]
  congr 1; omega

/-- What `Size` says about messages: at most the 146 bytes of a header, unless there are locators. -/
theorem message_sizes (m : Msg) (n : Nat) (h : sizeArg m.arg = .ok n) :
    n ≤ 146 ∨ ∃ v, m = .getBlocks v ∧ n = 5 + 32 * v.1.length := by
  cases m with
  | getBlocks v =>
    have := getBlocks_size_eq v
    simp only [Msg.arg, sizeArg, this] at h
    cases h
    exact .inr ⟨v, rfl, rfl⟩
  | version v =>
    simp only [Msg.arg, sizeArg, Size, versionTy, valueSize, fieldsSize, fieldTags_none, peerAddress] at h
    cases h
  | inv v =>
    simp only [Msg.arg, sizeArg, Size, invTy, valueSize, fieldsSize, fieldTags_none] at h
    cases h
  | block v =>
    simp only [Msg.arg, sizeArg, Size, blockMsgTy, blockTy, headerTy, valueSize, fieldsSize, fieldTags_none, interlink] at h
    cases h
  | tx v =>
    simp only [Msg.arg, sizeArg, Size, txMsgTy, valueSize, fieldsSize, fieldTags_none, wrapTx] at h
    cases h
  | empty t => cases h
  | ping p =>
    simp only [Msg.arg, sizeArg, Size, valueSize, Wire.ping] at h
    cases h
  | getTxProof v =>
    simp only [Msg.arg, sizeArg, Size, getTxProofTy, valueSize, fieldsSize, fieldTags_none] at h
    cases h
  | addr v =>
    obtain ⟨l, u⟩ := v
    cases l with
    | nil =>
      simp only [Msg.arg, sizeArg, Size, addrTy, valueSize, fieldsSize, fieldTags_u16, Ty.numSize] at h
      cases h
      exact .inl (by decide)
    | cons x l =>
      simp only [Msg.arg, sizeArg] at h
      rw [addr_size_err] at h
      cases h
  | header v =>
    simp only [Msg.arg, sizeArg, Size, headMsgTy, headerTy, valueSize, fieldsSize, fieldTags_none, NumKind.size] at h
    cases h
    exact .inl (by decide)
  | head v =>
    simp only [Msg.arg, sizeArg, Size, headMsgTy, headerTy, valueSize, fieldsSize, fieldTags_none, NumKind.size] at h
    cases h
    exact .inl (by decide)
  | getAddr v =>
    simp only [Msg.arg, sizeArg, Size, getAddrTy, valueSize, fieldsSize, fieldTags_none, NumKind.size] at h
    cases h
    exact .inl (by decide)
  | verAck v =>
    simp only [Msg.arg, sizeArg, Size, verAckTy, valueSize, fieldsSize, fieldTags_none, NumKind.size] at h
    cases h
    exact .inl (by decide)
  | getTxReceipts v =>
    simp only [Msg.arg, sizeArg, Size, getTxReceiptsTy, valueSize, fieldsSize, fieldTags_none, NumKind.size] at h
    cases h
    exact .inl (by decide)

/-- What MarshalMessage returns is 8 bytes longer than `Size` says. -/
theorem message_length (m : Msg) (n : Nat) (hs : sizeArg m.arg = .ok n) (b : Bytes) (h : MarshalMessage m = .ok b) :
    b.length = 8 + n := by
  have key : ∀ (t : Ty) (v : t.Val), m.arg = .pointer t (some v) → SizeOk t → b.length = 8 + n := by
    intro t v e ho
    rw [e] at hs
    rw [marshalMessage_ptr e hs] at h
    obtain ⟨bs, h1, h2⟩ := valueSize_sound t {} v n (putBE 8 m.type.toNat) ho hs
    unfold Marshal at h
    rw [h2] at h
    cases h
    rw [List.length_append, h1, putBE_length]
  have hc := (C42_sendable_partial m).mp ⟨b, h⟩
  cases m with
  | getBlocks v => exact key _ _ rfl ⟨trivial, trivial, trivial, trivial⟩
  | header v => exact key headMsgTy v rfl (by simp [headMsgTy, headerTy, SizeOk, SizeOkFields])
  | head v => exact key headMsgTy v rfl (by simp [headMsgTy, headerTy, SizeOk, SizeOkFields])
  | getAddr v => exact key getAddrTy v rfl (by simp [getAddrTy, SizeOk, SizeOkFields])
  | verAck v => exact key verAckTy v rfl (by simp [verAckTy, SizeOk, SizeOkFields])
  | getTxReceipts v => exact key getTxReceiptsTy v rfl (by simp [getTxReceiptsTy, SizeOk, SizeOkFields])
  | addr v => exact key addrTy v rfl (by simp [addrTy, peerAddress, SizeOk, SizeOkFields])
  | _ => exact absurd hc (by simp [Sendable])

/-- C144, sending messages: on every platform whose `int` has 32 bits or more, MarshalMessage of any message that fits into
memory (the locators of a block request, at 32 bytes each, and 13 bytes more) is what it is with unbounded numbers, and the
size for which it makes the buffer is exactly that of what it returns. -/
theorem C144_messages (w : Nat) (hw : 32 ≤ w) (m : Msg)
    (hmem : ∀ v, m = .getBlocks v → 13 + 32 * v.1.length < 2 ^ (w - 1)) :
    MarshalMessageAt w m = MarshalMessage m ∧
      ∀ size b, sizeArgAt w m.arg = .ok size → MarshalMessageAt w m = .ok b → (b.length : Int) = 8 + size := by
  have hp : 2 ^ 31 ≤ 2 ^ (w - 1) := Nat.pow_le_pow_right (by omega) (by omega)
  have fits : ∀ n, sizeArg m.arg = .ok n → 8 + n < 2 ^ (w - 1) := by
    intro n hs
    rcases message_sizes m n hs with h | ⟨v, hv, h⟩
    · omega
    · have := hmem v hv; omega
  have he : MarshalMessageAt w m = MarshalMessage m := by
    unfold MarshalMessageAt MarshalMessage
    rw [sizeArgAt_eq]
    cases hs : sizeArg m.arg with
    | err e => rfl
    | panic => rfl
    | ok n =>
      have hn := fits n hs
      have e1 : wrap w (n : Int) = n := wrap_of_lt (by omega) (by omega)
      have e2 : wrap w (8 + (n : Int)) = ((8 + n : Nat) : Int) := by
        have := wrap_of_lt (w := w) (n := 8 + n) (by omega) hn
        push_cast at this ⊢
        exact this
      simp only [wrapped, e1, e2]
      rw [if_neg (by omega)]
  refine ⟨he, fun size b h hb => ?_⟩
  rw [he] at hb
  rw [sizeArgAt_eq] at h
  cases hs : sizeArg m.arg with
  | err e => rw [hs] at h; cases h
  | panic => rw [hs] at h; cases h
  | ok n =>
    have hn := fits n hs
    rw [hs] at h
    cases h
    rw [message_length m n hs b hb, wrap_of_lt (by omega) (by omega)]
    push_cast
    rfl

/-- C144_messages says something about a real message, with two locators: it is sent, on a 32-bit platform. -/
example : ∃ b, MarshalMessageAt 32 (.getBlocks ([BArr.zero 32, BArr.zero 32], (500 : UInt16), (0 : UInt8), ())) = .ok b := by
  rw [(C144_messages 32 (by omega) _ (by intro v hv; cases hv; decide)).1]
  exact (C42_sendable_partial _).mpr trivial

end Nimiq.Wire
