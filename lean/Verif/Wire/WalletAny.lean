import Verif.Wire.Sign
/-!
# `wallet.Basic` in any state (C116)

`PrivateKey` and `PublicKey` are exported slices: a caller may leave them nil, assign others, or slices of odd lengths.
`Wire/Model.lean` has wallets made by `DeriveBasic`/`GenerateBasic` only; here is the same code for every `Basic` value.
-/
namespace Nimiq.Wire
open Beserial

/-- A `[]byte`: nil, or its bytes and the bytes between its length and its capacity. -/
inductive KeySlice where
  | nil
  | mk (bytes spare : Bytes)
  deriving DecidableEq

/-- The bytes of a slice up to its length. -/
def KeySlice.bytes : KeySlice → Bytes
  | .nil => []
  | .mk b _ => b

/-- `s[:n]`: panics if `n` exceeds the capacity (not the length). -/
def KeySlice.take (n : Nat) : KeySlice → Out Bytes
  | .nil => if n = 0 then .ok [] else .panic
  | .mk b sp => if n ≤ b.length + sp.length then .ok ((b ++ sp).take n) else .panic

/-- wallet/basic.go:18-22 `Basic` -/
structure Basic where
  privateKey : KeySlice
  publicKey : KeySlice
  address : Addr

/-- The zero `Basic`. -/
def Basic.zero : Basic := ⟨.nil, .nil, BArr.zero 20⟩

/-- wallet/basic.go:57-63 `GetPublicKey` -/
def Basic.getPublicKey (w : Basic) : Out (BArr 32) :=
  match w.publicKey with
  | .nil => .panic
  | k => match k.take 32 with
    | .ok b => .ok (BArr.copy 32 b)
    | .err e => .err e
    | .panic => .panic

/-- wallet/basic.go:48-54 `GetAddress` -/
def Basic.getAddress (H : Bytes → Hash32) (w : Basic) : Out Addr × Basic :=
  if w.address = BArr.zero 20 then
    match w.getPublicKey with
    | .ok pub => (.ok (publicKeyToAddress H pub), { w with address := publicKeyToAddress H pub })
    | .err e => (.err e, w)
    | .panic => (.panic, w)
  else (.ok w.address, w)

/-- crypto/ed25519 `PrivateKey.Sign` with `crypto.Hash(0)`: a key that is not 64 bytes long panics -/
def keySign (S : SigScheme) (k : KeySlice) (msg : Bytes) : Out (BArr 64) :=
  if h : k.bytes.length = 64 then .ok (S.sign ⟨k.bytes, h⟩ msg) else .panic

/-- wallet/basic.go:65-79 `signTx` -/
def Basic.signTx (S : SigScheme) (H : Bytes → Hash32) (w : Basic) (tx : Tx) : Out (BArr 64) :=
  match w.publicKey with
  | .nil => .panic
  | _ =>
    match Marshal [] TxContent.ty (tx.content H).toVal with
    | .ok contentBuf => keySign S w.privateKey contentBuf
    | .err _ => .panic
    | .panic => .panic

/-- wallet/basic.go:82-89 `SignBasicTx` -/
def Basic.signBasicTx (S : SigScheme) (H : Bytes → Hash32) (w : Basic) (tx : BasicTx) : Out BasicTx :=
  if w.publicKey.bytes ≠ tx.senderPubKey.val then .err .wrongSender
  else match w.signTx S H (.basic tx) with
    | .ok sig => .ok { tx with signature := sig }
    | .err e => .err e
    | .panic => .panic

/-- wallet/basic.go:92-99 `SignExtendedTx` -/
def Basic.signExtendedTx (S : SigScheme) (H : Bytes → Hash32) (w : Basic) (tx : ExtendedTx) : Out ExtendedTx :=
  match w.signTx S H (.extended tx) with
  | .ok sig =>
    match w.publicKey.take 32 with
    | .ok pub =>
      match Marshal [] SignatureProof.ty (SignatureProof.toVal ⟨BArr.copy 32 pub, ⟨⟨0, []⟩, []⟩, sig⟩) with
      | .ok proof => .ok { tx with proof := proof }
      | .err e => .err e
      | .panic => .panic
    | .err e => .err e
    | .panic => .panic
  | .err e => .err e
  | .panic => .panic

/-! ## Specification -/

/-- The public key a slice stands for: 32 bytes, some of which may be beyond its length. -/
def KeySlice.key32 : KeySlice → Option (BArr 32)
  | .nil => none
  | .mk b sp => if h : 32 ≤ b.length + sp.length then some ⟨(b ++ sp).take 32, by simp; omega⟩ else none

/-- What happens to a wallet: the exported fields are assigned, or a method is called. -/
inductive WalletOp where
  | setPublicKey (k : KeySlice)
  | setPrivateKey (k : KeySlice)
  | getAddress

/-- One operation; `GetAddress` answers. -/
def Basic.step (H : Bytes → Hash32) (w : Basic) : WalletOp → Option (Out Addr) × Basic
  | .setPublicKey k => (none, { w with publicKey := k })
  | .setPrivateKey k => (none, { w with privateKey := k })
  | .getAddress => let r := w.getAddress H; (some r.1, r.2)

/-- A history. -/
def Basic.run (H : Bytes → Hash32) (w : Basic) (ops : List WalletOp) : Basic := ops.foldl (fun w o => (w.step H o).2) w

/-- The public key assigned last. -/
def lastKey (k : KeySlice) : List WalletOp → KeySlice
  | [] => k
  | .setPublicKey k' :: ops => lastKey k' ops
  | _ :: ops => lastKey k ops

/-- The public keys that were set when `GetAddress` was called, in order. -/
def askedKeys (k : KeySlice) : List WalletOp → List KeySlice
  | [] => []
  | .setPublicKey k' :: ops => askedKeys k' ops
  | .setPrivateKey _ :: ops => askedKeys k ops
  | .getAddress :: ops => k :: askedKeys k ops

/-- The address that sticks: of the first key with which `GetAddress` was called and which has a non-zero address. -/
def stuck (H : Bytes → Hash32) : List KeySlice → Option Addr
  | [] => none
  | k :: ks =>
    match k.key32 with
    | some pub => if publicKeyToAddress H pub = BArr.zero 20 then stuck H ks else some (publicKeyToAddress H pub)
    | none => stuck H ks

/-! ## Lemmas -/

theorem copy_self {n : Nat} {b : Bytes} (h : b.length = n) : BArr.copy n b = ⟨b, h⟩ := by
  apply Subtype.ext
  simp [BArr.copy, ← h]

theorem take32 (k : KeySlice) : k.take 32 = match k.key32 with | some p => .ok p.val | none => .panic := by
  cases k with
  | nil => rfl
  | mk b sp =>
    simp only [KeySlice.take, KeySlice.key32]
    by_cases h : 32 ≤ b.length + sp.length
    · rw [if_pos h, dif_pos h]
    · rw [if_neg h, dif_neg h]

theorem getPublicKey_eq (w : Basic) : w.getPublicKey = match w.publicKey.key32 with | some p => .ok p | none => .panic := by
  unfold Basic.getPublicKey
  have := take32 w.publicKey
  cases hk : w.publicKey with
  | nil => rfl
  | mk b sp =>
    rw [hk] at this
    simp only [this]
    cases KeySlice.key32 (.mk b sp) with
    | none => rfl
    | some p => simp only [copy_self p.property]

theorem signTx_eq (S : SigScheme) (H : Bytes → Hash32) (w : Basic) (tx : Tx) : w.signTx S H tx =
    if w.publicKey = .nil then .panic else keySign S w.privateKey (signLayout (tx.content H)) := by
  unfold Basic.signTx
  rw [sign_marshal]
  cases w.publicKey <;> simp

/-! ## C116 -/

/-- A wallet of `Wire/Model.lean` as a `Basic` value; the slices may have spare capacity. -/
def Wallet.toBasic (w : Wallet) (sp1 sp2 : Bytes) : Basic := ⟨.mk w.privateKey.val sp1, .mk w.publicKey.val sp2, w.address⟩

/-- C116. On wallets with a key pair of the right lengths the functions are those the other properties are about. -/
theorem C116_same (S : SigScheme) (H : Bytes → Hash32) (w : Wallet) (sp1 sp2 : Bytes) :
    (w.toBasic sp1 sp2).getAddress H = (.ok (w.getAddress H).1, (w.getAddress H).2.toBasic sp1 sp2) ∧
    (∀ tx, (w.toBasic sp1 sp2).signBasicTx S H tx = w.signBasicTx S H tx) ∧
    (∀ tx, (w.toBasic sp1 sp2).signExtendedTx S H tx = w.signExtendedTx S H tx) := by
  have hk : (w.toBasic sp1 sp2).publicKey.key32 = some w.publicKey := by
    have hl := w.publicKey.property
    simp only [Wallet.toBasic, KeySlice.key32]
    rw [dif_pos (by omega)]
    congr 1
    apply Subtype.ext
    show (w.publicKey.val ++ sp2).take 32 = _
    rw [List.take_append_of_le_length (by omega), List.take_of_length_le (by omega)]
  have hs : ∀ tx, (w.toBasic sp1 sp2).signTx S H tx = w.signTx S H tx := by
    intro tx
    rw [signTx_eq, if_neg (by simp [Wallet.toBasic]), Wallet.signTx, sign_marshal]
    have : (w.toBasic sp1 sp2).privateKey.bytes.length = 64 := w.privateKey.property
    rw [keySign, dif_pos this]
    rfl
  refine ⟨?_, ?_, ?_⟩
  · simp only [Basic.getAddress, getPublicKey_eq, hk, Wallet.getAddress]
    show (if w.address = BArr.zero 20 then _ else _) = _
    by_cases h : w.address = BArr.zero 20
    · simp only [if_pos h]; rfl
    · simp only [if_neg h]; rfl
  · intro tx
    simp only [Basic.signBasicTx, Wallet.signBasicTx, hs]
    show (if w.publicKey.val ≠ tx.senderPubKey.val then _ else _) = _
    by_cases h : w.publicKey = tx.senderPubKey
    · rw [if_neg (by rw [h]; simp), if_neg (by simp [h])]
      rfl
    · rw [if_pos (fun e => h (Subtype.ext e)), if_pos h]
  · intro tx
    simp only [Basic.signExtendedTx, Wallet.signExtendedTx, hs, take32, hk, copy_self w.publicKey.property]
    rfl

/-- C116. Exactly when the methods panic: a missing public key, one that cannot be sliced to 32 bytes, or a private key that
is not 64 bytes long. `SignBasicTx` on a wallet without a key refuses with an error instead; `SignExtendedTx` has no error. -/
theorem C116_panics (S : SigScheme) (H : Bytes → Hash32) (w : Basic) :
    (w.getPublicKey = .panic ↔ w.publicKey.key32 = none) ∧
    ((w.getAddress H).1 = .panic ↔ w.address = BArr.zero 20 ∧ w.publicKey.key32 = none) ∧
    (∀ tx, w.signBasicTx S H tx = .err .wrongSender ↔ w.publicKey.bytes ≠ tx.senderPubKey.val) ∧
    (∀ tx, w.signBasicTx S H tx = .panic ↔ w.publicKey.bytes = tx.senderPubKey.val ∧ w.privateKey.bytes.length ≠ 64) ∧
    (∀ tx, w.signExtendedTx S H tx = .panic ↔ w.publicKey.key32 = none ∨ w.privateKey.bytes.length ≠ 64) ∧
    (∀ tx e, w.signExtendedTx S H tx ≠ .err e) := by
  have hne : ∀ tx : BasicTx, w.publicKey.bytes = tx.senderPubKey.val → w.publicKey ≠ .nil := by
    intro tx h hn
    rw [hn] at h
    have := tx.senderPubKey.property
    rw [← h] at this
    simp [KeySlice.bytes] at this
  have hext : ∀ tx, w.signExtendedTx S H tx =
      if h : w.privateKey.bytes.length = 64 then
        match w.publicKey.key32 with
        | some p => .ok { tx with proof := p.val ++ 0 :: (S.sign ⟨w.privateKey.bytes, h⟩ (signLayout ((Tx.extended tx).content H))).val }
        | none => .panic
      else .panic := by
    intro tx
    unfold Basic.signExtendedTx
    rw [signTx_eq]
    by_cases hn : w.publicKey = .nil
    · rw [if_pos hn]
      simp only
      split
      · rw [hn]; rfl
      · rfl
    · rw [if_neg hn, keySign]
      by_cases h : w.privateKey.bytes.length = 64
      · simp only [dif_pos h, take32]
        cases hk : w.publicKey.key32 with
        | none => rfl
        | some p =>
          simp only [copy_self p.property]
          have he := sigProof_enc p (S.sign ⟨w.privateKey.bytes, h⟩ (signLayout ((Tx.extended tx).content H)))
          have := marshal_spec SignatureProof.ty {} _ _ [] sigProof_good he
          rw [List.nil_append] at this
          have hm : Marshal [] SignatureProof.ty _ = _ := this
          rw [hm]
      · simp only [dif_neg h]
  refine ⟨?_, ?_, ?_, ?_, ?_, ?_⟩
  · rw [getPublicKey_eq]; cases w.publicKey.key32 <;> simp
  · unfold Basic.getAddress
    rw [getPublicKey_eq]
    by_cases h : w.address = BArr.zero 20
    · rw [if_pos h]; cases w.publicKey.key32 <;> simp [h]
    · rw [if_neg h]; simp [h]
  · intro tx
    unfold Basic.signBasicTx
    by_cases h : w.publicKey.bytes = tx.senderPubKey.val
    · rw [if_neg (by simp [h]), signTx_eq, if_neg (hne tx h), keySign]
      by_cases h2 : w.privateKey.bytes.length = 64
      · rw [dif_pos h2]; simp [h]
      · rw [dif_neg h2]; simp [h]
    · rw [if_pos h]; simp [h]
  · intro tx
    unfold Basic.signBasicTx
    by_cases h : w.publicKey.bytes = tx.senderPubKey.val
    · rw [if_neg (by simp [h]), signTx_eq, if_neg (hne tx h), keySign]
      by_cases h2 : w.privateKey.bytes.length = 64
      · rw [dif_pos h2]; simp [h, h2]
      · rw [dif_neg h2]; simp [h, h2]
    · rw [if_pos h]; simp [h]
  · intro tx
    rw [hext]
    by_cases h : w.privateKey.bytes.length = 64
    · rw [dif_pos h]; cases w.publicKey.key32 <;> simp [h]
    · rw [dif_neg h]; simp [h]
  · intro tx e
    rw [hext]
    by_cases h : w.privateKey.bytes.length = 64
    · rw [dif_pos h]; cases w.publicKey.key32 <;> simp
    · rw [dif_neg h]; simp

theorem run_eq (H : Bytes → Hash32) (ops : List WalletOp) : ∀ w : Basic,
    (w.run H ops).publicKey = lastKey w.publicKey ops ∧
    (w.run H ops).address = if w.address = BArr.zero 20 then (stuck H (askedKeys w.publicKey ops)).getD (BArr.zero 20)
      else w.address := by
  induction ops with
  | nil => intro w; simp [Basic.run, lastKey, askedKeys, stuck]
  | cons o ops ih =>
    intro w
    have hr : w.run H (o :: ops) = (w.step H o).2.run H ops := rfl
    rw [hr]
    have := ih (w.step H o).2
    cases o with
    | setPublicKey k => exact this
    | setPrivateKey k => exact this
    | getAddress =>
      simp only [Basic.step, Basic.getAddress, getPublicKey_eq] at this ⊢
      simp only [lastKey, askedKeys, stuck]
      by_cases hz : w.address = BArr.zero 20
      · cases hk : w.publicKey.key32 with
        | none => simp only [hz, hk, if_true] at this ⊢; exact this
        | some p =>
          simp only [hz, hk, if_true] at this ⊢
          refine ⟨this.1, this.2.trans ?_⟩
          by_cases hp : publicKeyToAddress H p = BArr.zero 20
          · simp only [hp, if_true]
          · simp only [hp, if_false]; rfl
      · simp only [hz, if_false] at this ⊢
        exact this

/-- C116. What `GetAddress` answers after any history of a new or zero wallet: the address of the first public key with which
it was called before (and which has a non-zero address), and only if there is none that of the present key. -/
theorem C116_history (H : Bytes → Hash32) (w : Basic) (hw : w.address = BArr.zero 20) (ops : List WalletOp) :
    ((w.run H ops).getAddress H).1 =
      match stuck H (askedKeys w.publicKey ops), (lastKey w.publicKey ops).key32 with
      | some a, _ => .ok a
      | none, some pub => .ok (publicKeyToAddress H pub)
      | none, none => .panic := by
  obtain ⟨h1, h2⟩ := run_eq H ops w
  rw [if_pos hw] at h2
  unfold Basic.getAddress
  rw [getPublicKey_eq, h1]
  cases hs : stuck H (askedKeys w.publicKey ops) with
  | none =>
    rw [hs] at h2
    rw [h2]
    simp only [Option.getD_none, if_true]
    cases (lastKey w.publicKey ops).key32 <;> rfl
  | some a =>
    rw [hs] at h2
    have ha : a ≠ BArr.zero 20 := by
      intro h0
      subst h0
      revert hs
      generalize askedKeys w.publicKey ops = ks
      induction ks with
      | nil => simp [stuck]
      | cons k ks ih =>
        simp only [stuck]
        cases k.key32 with
        | none => exact ih
        | some p =>
          by_cases hp : publicKeyToAddress H p = BArr.zero 20
          · simp only [hp, if_true]; exact ih
          · simp only [hp, if_false]; intro h; exact hp (Option.some.inj h)
    rw [h2]
    simp only [Option.getD_some, ha, if_false]

example (priv pub : KeySlice) : (⟨priv, pub, BArr.zero 20⟩ : Basic).address = BArr.zero 20 := rfl

/-- C116, the part that holds: as long as the public key is not changed, `GetAddress` answers with its address. -/
theorem C116_address_partial (H : Bytes → Hash32) (w : Basic) (hw : w.address = BArr.zero 20) (pub : BArr 32)
    (hk : w.publicKey.key32 = some pub) (ops : List WalletOp) (hops : ∀ k, WalletOp.setPublicKey k ∈ ops → k = w.publicKey) :
    ((w.run H ops).getAddress H).1 = .ok (publicKeyToAddress H pub) := by
  rw [C116_history H w hw]
  have hlast : ∀ ops, (∀ k, WalletOp.setPublicKey k ∈ ops → k = w.publicKey) → lastKey w.publicKey ops = w.publicKey ∧
      (stuck H (askedKeys w.publicKey ops) = none ∨ stuck H (askedKeys w.publicKey ops) = some (publicKeyToAddress H pub)) := by
    intro ops
    induction ops with
    | nil => intro _; exact ⟨rfl, .inl rfl⟩
    | cons o ops ih =>
      intro h
      have := ih (fun k hk => h k (by simp [hk]))
      cases o with
      | setPublicKey k => have e := h k (by simp); subst e; exact this
      | setPrivateKey k => exact this
      | getAddress =>
        refine ⟨this.1, ?_⟩
        simp only [askedKeys, stuck, hk]
        by_cases hp : publicKeyToAddress H pub = BArr.zero 20
        · simp only [hp, if_true]; rw [hp] at this; exact this.2
        · simp only [hp, if_false]; exact .inr trivial
  obtain ⟨h1, h2 | h2⟩ := hlast ops hops
  · rw [h1, h2, hk]
  · rw [h2]

/-- C116, violated: after a call of `GetAddress`, assigning another key does not change the address. -/
theorem C116_stale_violated (H : Bytes → Hash32) (w : Basic) (hw : w.address = BArr.zero 20) (pub : BArr 32)
    (hk : w.publicKey.key32 = some pub) (hz : publicKeyToAddress H pub ≠ BArr.zero 20) (k : KeySlice) :
    ((w.run H [.getAddress, .setPublicKey k]).getAddress H).1 = .ok (publicKeyToAddress H pub) := by
  rw [C116_history H w hw]
  simp only [askedKeys, stuck, hk, if_neg hz]

/-- C116, violated: the two keys are never compared. With a private key of another pair signing succeeds; the proof carries
the public key of the wallet and the signature of the other key. If signatures of one key never verify under another, nobody
accepts it. -/
theorem C116_mismatch_violated (S : SigScheme) (H : Bytes → Hash32) (priv : BArr 64) (pub : BArr 32) (hne : pub ≠ pubOf priv)
    (hS : ∀ sk m pk, S.verify pk m (S.sign sk m) = true → pk = pubOf sk) (tx : ExtendedTx) :
    ∃ tx' sig b, (Wallet.toBasic ⟨priv, pub, BArr.zero 20⟩ [] []).signExtendedTx S H tx = .ok tx' ∧
      signingBytes H (.extended tx) = .ok b ∧ tx'.proof = pub.val ++ 0 :: sig.val ∧ S.verify pub b sig = false := by
  refine ⟨{ tx with proof := pub.val ++ 0 :: (S.sign priv (signLayout ((Tx.extended tx).content H))).val }, _, _, ?_,
    sign_marshal _, rfl, ?_⟩
  · rw [(C116_same S H ⟨priv, pub, BArr.zero 20⟩ [] []).2.2, Wallet.signExtendedTx, Wallet.signTx, sign_marshal]
    simp only
    have := marshal_spec SignatureProof.ty {} _ _ [] sigProof_good
      (sigProof_enc pub (S.sign priv (signLayout ((Tx.extended tx).content H))))
    rw [List.nil_append] at this
    have hm : Marshal [] SignatureProof.ty _ = _ := this
    rw [hm]
  · by_cases h : S.verify pub (signLayout ((Tx.extended tx).content H)) (S.sign priv (signLayout ((Tx.extended tx).content H))) = true
    · exact absurd (hS _ _ _ h) hne
    · simpa using h

/-- C116, violated: a public key slice that is too short but has capacity is accepted, with the bytes behind its end. -/
theorem C116_short_violated (H : Bytes → Hash32) (priv : KeySlice) (b sp : Bytes) (h1 : b.length < 32)
    (h2 : (b ++ sp).length = 32) : (Basic.getAddress H ⟨priv, .mk b sp, BArr.zero 20⟩).1 =
      .ok (publicKeyToAddress H ⟨b ++ sp, h2⟩) := by
  have hk : KeySlice.key32 (.mk b sp) = some ⟨b ++ sp, h2⟩ := by
    rw [List.length_append] at h2
    simp only [KeySlice.key32]
    rw [dif_pos (by omega)]
    congr 1
    apply Subtype.ext
    exact List.take_of_length_le (by simp; omega)
  simp only [Basic.getAddress, getPublicKey_eq, hk, if_true]

/-! ## Non-vacuity -/

/-- The zero wallet: no address, refuses basic transactions, panics on extended ones. -/
example (S : SigScheme) (H : Bytes → Hash32) (t : BasicTx) (x : ExtendedTx) : (Basic.zero.getAddress H).1 = .panic ∧
    Basic.zero.signBasicTx S H t = .err .wrongSender ∧ Basic.zero.signExtendedTx S H x = .panic := by
  obtain ⟨-, h2, h3, -, h5, -⟩ := C116_panics S H Basic.zero
  refine ⟨h2.mpr ⟨rfl, rfl⟩, (h3 t).mpr ?_, (h5 x).mpr (.inl rfl)⟩
  intro h
  have := congrArg List.length h
  rw [t.senderPubKey.property] at this
  cases this

/-- Two keys with different addresses, for a hash that copies. -/
example : ∃ H : Bytes → Hash32, ∃ p q : BArr 32, publicKeyToAddress H p ≠ BArr.zero 20 ∧
    publicKeyToAddress H q ≠ publicKeyToAddress H p :=
  ⟨BArr.copy 32, ⟨List.replicate 32 1, by simp⟩, ⟨List.replicate 32 2, by simp⟩, by decide, by decide⟩

/-- A scheme that satisfies the hypothesis of `C116_mismatch_violated`. -/
example : ∃ S : SigScheme, ∀ sk m pk, S.verify pk m (S.sign sk m) = true → pk = pubOf sk := by
  refine ⟨⟨fun sk _ => BArr.copy 64 (pubOf sk).val, fun pk _ sig => decide (sig.val.take 32 = pk.val)⟩, ?_⟩
  intro sk m pk h
  simp only [decide_eq_true_eq] at h
  apply Subtype.ext
  rw [← h]
  have hl := (pubOf sk).property
  simp only [BArr.copy]
  rw [List.take_append_of_le_length (by simp; omega), List.take_take, List.take_of_length_le (by omega)]

end Nimiq.Wire
