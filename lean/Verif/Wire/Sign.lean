import Verif.Wire.Codecs
/-!
# Signing bytes, wallets, peer address signatures, Merkle paths (C49-C52, C72)
-/
namespace Nimiq.Wire
open Beserial Beserial.Spec

/-! ## Specification -/

/-- What is signed for a transaction, with the length of the data modulo 65536 in front. -/
def signLayout (c : TxContent) : Bytes :=
  digits 2 (c.data.length % 65536) ++ c.data ++ c.sender.val ++ digits 1 c.senderType.toNat ++
    c.recipient.val ++ digits 1 c.recipientType.toNat ++ digits 8 c.value.toNat ++ digits 8 c.fee.toNat ++
    digits 4 c.validityStartHeight.toNat ++ digits 1 c.networkID.toNat ++ digits 1 c.flags.toNat

/-- The bytes `wallet.signTx` hands to the signature algorithm: `beserial.Marshal(nil, &content)`. -/
def signingBytes (H : Bytes → Hash32) (tx : Tx) : Out Bytes := Marshal [] TxContent.ty (tx.content H).toVal

/-! ## Lemmas -/

theorem digits_mod (n x : Nat) : digits n (x % 256 ^ n) = digits n x := by
  rw [← putBE_eq_digits, ← putBE_eq_digits]
  have h := putBE_getBE (putBE n x)
  rw [putBE_length, getBE_putBE] at h
  exact h

theorem digits_inj {n x y : Nat} (hx : x < 256 ^ n) (hy : y < 256 ^ n) (h : digits n x = digits n y) : x = y := by
  rw [← putBE_eq_digits, ← putBE_eq_digits] at h
  have := congrArg getBE h
  rwa [getBE_putBE_of_lt hx, getBE_putBE_of_lt hy] at this

theorem sign_marshal (c : TxContent) : Marshal [] TxContent.ty c.toVal = .ok (signLayout c) := by
  simp only [Marshal, TxContent.ty, TxContent.toVal, marshal, marshalFields, fieldTags_none]
  have ht : fieldTags tagU16 = some { lenTag := some .u16 } := fieldTags_u16
  simp only [ht]
  have hm : digits 2 (c.data.length % 65536) = putBE 2 c.data.length := by
    rw [putBE_eq_digits]; exact digits_mod 2 _
  simp only [signLayout, hm, ← putBE_eq_digits]
  simp [putNum, putLen, LenKind.size]

theorem app_inj {n : Nat} {a b c d : Bytes} (h1 : a.length = n) (h2 : b.length = n) (h : a ++ c = b ++ d) : a = b ∧ c = d :=
  List.append_inj h (by rw [h1, h2])

theorem barr_inj {n : Nat} {a b : BArr n} (h : a.val = b.val) : a = b := Subtype.ext h

theorem signLayout_length (c : TxContent) : (signLayout c).length = c.data.length + 66 := by
  have := c.sender.property
  have := c.recipient.property
  simp only [signLayout, List.length_append, digits_length]
  omega

theorem signLayout_inj {c d : TxContent} (h : signLayout c = signLayout d) : c = d := by
  have hl : c.data.length = d.data.length := by
    have := congrArg List.length h
    rw [signLayout_length, signLayout_length] at this
    omega
  simp only [signLayout, List.append_assoc] at h
  obtain ⟨_, h⟩ := app_inj (digits_length _ _) (digits_length _ _) h
  obtain ⟨h1, h⟩ := app_inj hl rfl h
  obtain ⟨h2, h⟩ := app_inj c.sender.property d.sender.property h
  obtain ⟨h3, h⟩ := app_inj (digits_length _ _) (digits_length _ _) h
  obtain ⟨h4, h⟩ := app_inj c.recipient.property d.recipient.property h
  obtain ⟨h5, h⟩ := app_inj (digits_length _ _) (digits_length _ _) h
  obtain ⟨h6, h⟩ := app_inj (digits_length _ _) (digits_length _ _) h
  obtain ⟨h7, h⟩ := app_inj (digits_length _ _) (digits_length _ _) h
  obtain ⟨h8, h⟩ := app_inj (digits_length _ _) (digits_length _ _) h
  obtain ⟨h9, h10⟩ := app_inj (digits_length _ _) (digits_length _ _) h
  cases c; cases d
  simp only [TxContent.mk.injEq] at *
  refine ⟨h1, barr_inj h2, ?_, barr_inj h4, ?_, ?_, ?_, ?_, ?_, ?_⟩
  · exact UInt8.toNat_inj.mp (digits_inj (by exact UInt8.toNat_lt _) (by exact UInt8.toNat_lt _) h3)
  · exact UInt8.toNat_inj.mp (digits_inj (by exact UInt8.toNat_lt _) (by exact UInt8.toNat_lt _) h5)
  · exact UInt64.toNat_inj.mp (digits_inj (by exact UInt64.toNat_lt _) (by exact UInt64.toNat_lt _) h6)
  · exact UInt64.toNat_inj.mp (digits_inj (by exact UInt64.toNat_lt _) (by exact UInt64.toNat_lt _) h7)
  · exact UInt32.toNat_inj.mp (digits_inj (by exact UInt32.toNat_lt _) (by exact UInt32.toNat_lt _) h8)
  · exact UInt8.toNat_inj.mp (digits_inj (by exact UInt8.toNat_lt _) (by exact UInt8.toNat_lt _) h9)
  · exact UInt8.toNat_inj.mp (digits_inj (by exact UInt8.toNat_lt _) (by exact UInt8.toNat_lt _) h10)

/-! ## C49 -/

/-- The data of a transaction; basic transactions have none. -/
def Tx.data : Tx → Bytes
  | .basic _ => []
  | .extended t => t.data
def Tx.flags : Tx → UInt8
  | .basic _ => 0
  | .extended t => t.flags
def Tx.network : Tx → UInt8
  | .basic t => t.networkID
  | .extended t => t.networkID
def Tx.start : Tx → UInt32
  | .basic t => t.validityStartHeight
  | .extended t => t.validityStartHeight

/-- C49. Signing bytes exist for every transaction, in the documented layout. -/
theorem C49_layout (H : Bytes → Hash32) (tx : Tx) : ∃ b, signingBytes H tx = .ok b ∧
    b = digits 2 (tx.data.length % 65536) ++ tx.data ++ (tx.getSender H).1.val ++ digits 1 (tx.getSender H).2.toNat ++
      tx.getRecipient.1.val ++ digits 1 tx.getRecipient.2.toNat ++ digits 8 tx.amount.1.toNat ++
      digits 8 tx.amount.2.toNat ++ digits 4 tx.start.toNat ++ digits 1 tx.network.toNat ++ digits 1 tx.flags.toNat := by
  refine ⟨_, sign_marshal _, ?_⟩
  cases tx <;> rfl

/-- C49. Equal signing bytes mean equal content, for any two transactions of either format and any length of data. -/
theorem C49_injective (H : Bytes → Hash32) (tx1 tx2 : Tx) (h : signingBytes H tx1 = signingBytes H tx2) :
    tx1.data = tx2.data ∧ tx1.getSender H = tx2.getSender H ∧ tx1.getRecipient = tx2.getRecipient ∧
    tx1.amount = tx2.amount ∧ tx1.start = tx2.start ∧ tx1.network = tx2.network ∧ tx1.flags = tx2.flags := by
  have hc : tx1.content H = tx2.content H := by
    apply signLayout_inj
    unfold signingBytes at h
    rw [sign_marshal, sign_marshal] at h
    exact Out.ok.inj h
  have e : ∀ tx : Tx, tx.data = (tx.content H).data ∧ tx.getSender H = ((tx.content H).sender, (tx.content H).senderType) ∧
      tx.getRecipient = ((tx.content H).recipient, (tx.content H).recipientType) ∧
      tx.amount = ((tx.content H).value, (tx.content H).fee) ∧ tx.start = (tx.content H).validityStartHeight ∧
      tx.network = (tx.content H).networkID ∧ tx.flags = (tx.content H).flags := by
    intro tx; cases tx <;> exact ⟨rfl, rfl, rfl, rfl, rfl, rfl, rfl⟩
  obtain ⟨a1, a2, a3, a4, a5, a6, a7⟩ := e tx1
  obtain ⟨b1, b2, b3, b4, b5, b6, b7⟩ := e tx2
  rw [a1, a2, a3, a4, a5, a6, a7, b1, b2, b3, b4, b5, b6, b7, hc]
  exact ⟨rfl, rfl, rfl, rfl, rfl, rfl, rfl⟩

example (H : Bytes → Hash32) (t : BasicTx) (sig : BArr 64) :
    signingBytes H (.basic t) = signingBytes H (.basic { t with signature := sig }) := rfl

/-- C49. Two basic transactions with equal signing bytes have the same sender key, or two keys with one address. -/
theorem C49_key (H : Bytes → Hash32) (t1 t2 : BasicTx) (h : signingBytes H (.basic t1) = signingBytes H (.basic t2)) :
    t1.senderPubKey = t2.senderPubKey ∨ (t1.senderPubKey ≠ t2.senderPubKey ∧
      publicKeyToAddress H t1.senderPubKey = publicKeyToAddress H t2.senderPubKey) := by
  have := congrArg Prod.fst (C49_injective H _ _ h).2.1
  by_cases hk : t1.senderPubKey = t2.senderPubKey
  · exact Or.inl hk
  · exact Or.inr ⟨hk, this⟩

/-- C49. Neither the signature nor the proof is part of the signing bytes. -/
theorem C49_proof_independent (H : Bytes → Hash32) (t : BasicTx) (s : BArr 64) (u : ExtendedTx) (p : Bytes) :
    signingBytes H (.basic { t with signature := s }) = signingBytes H (.basic t) ∧
    signingBytes H (.extended { u with proof := p }) = signingBytes H (.extended u) := ⟨rfl, rfl⟩

/-! ## C72 -/

/-- C72. Converting a transaction to the extended format keeps everything that is signed. -/
theorem C72_same_content (H : Bytes → Hash32) (tx : Tx) :
    signingBytes H (.extended (tx.asExtended H)) = signingBytes H tx := by cases tx <;> rfl

theorem sigProof_good : Good SignatureProof.ty := by
  simp only [SignatureProof.ty, Good, GoodFields, and_true, true_and]
  exact merklePath_lawful

theorem sigProof_enc_min {v : SignatureProof.ty.Val} {bs : Bytes} (h : enc SignatureProof.ty {} v = some bs) :
    97 ≤ bs.length := by
  have := enc_min SignatureProof.ty {} v bs sigProof_good h
  simpa [SignatureProof.ty, minSize, minFields, merklePath] using this

/-- C72 is false as far as proofs go: the proof of a converted basic transaction is its bare signature, which is never a
signature proof, so no check of the converted transaction can succeed. -/
theorem C72_proof_violated (H : Bytes → Hash32) (t : BasicTx) (prev v : SignatureProof.ty.Val) :
    ((Tx.basic t).asExtended H).proof = t.signature.val ∧
    UnmarshalFull SignatureProof.ty prev ((Tx.basic t).asExtended H).proof ≠ .ok v := by
  refine ⟨rfl, fun h => ?_⟩
  unfold UnmarshalFull at h
  cases hu : Unmarshal SignatureProof.ty prev ((Tx.basic t).asExtended H).proof with
  | err e r => rw [hu] at h; cases h
  | panic => rw [hu] at h; cases h
  | ok w r =>
    obtain ⟨bs, hbs, hd⟩ := decode_canon noLimit SignatureProof.ty {} w prev _ r sigProof_good hu
    have h1 := sigProof_enc_min hbs
    have h2 := congrArg List.length hd
    have h3 : ((Tx.basic t).asExtended H).proof.length = 64 := t.signature.property
    rw [h3, List.length_append] at h2
    omega

/-! ## C50 -/

/-- A wallet as the API makes it: the key pair matches and the cached address, once set, is right. -/
def WalletOk (H : Bytes → Hash32) (w : Wallet) : Prop :=
  w.publicKey = pubOf w.privateKey ∧ (w.address = BArr.zero 20 ∨ w.address = publicKeyToAddress H w.publicKey)

/-- C50. New wallets are well-formed and GetAddress keeps them so; it always returns the address of the public key. -/
theorem C50_address (H : Bytes → Hash32) (priv : BArr 64) (w : Wallet) (h : WalletOk H w) :
    WalletOk H (newWallet priv) ∧ WalletOk H (w.getAddress H).2 ∧
    (w.getAddress H).1 = publicKeyToAddress H w.publicKey := by
  refine ⟨⟨rfl, Or.inl rfl⟩, ?_⟩
  unfold Wallet.getAddress
  by_cases hz : w.address = BArr.zero 20
  · rw [if_pos hz]
    exact ⟨⟨h.1, Or.inr rfl⟩, rfl⟩
  · rw [if_neg hz]
    exact ⟨h, h.2.resolve_left hz⟩

theorem sigProof_enc (pub : BArr 32) (sig : BArr 64) : enc SignatureProof.ty {}
    (SignatureProof.toVal ⟨pub, ⟨⟨0, []⟩, []⟩, sig⟩) = some (pub.val ++ 0 :: sig.val) := by
  have h0 : BitSet.size 0 = 0 := by decide
  simp [SignatureProof.ty, SignatureProof.toVal, enc, encFields, merklePath, h0]

/-- C50. Signing an extended transaction always succeeds and changes nothing but the proof, which is 97 bytes that decode,
without junk, to the wallet's public key, an empty Merkle path and the signature of the signing bytes; the signer address
of that proof is the wallet's address. -/
theorem C50_extended (S : SigScheme) (H : Bytes → Hash32) (w : Wallet) (hw : WalletOk H w) (tx : ExtendedTx)
    (prev : SignatureProof.ty.Val) : ∃ tx' sig b, w.signExtendedTx S H tx = .ok tx' ∧
      signingBytes H (.extended tx) = .ok b ∧ sig = S.sign w.privateKey b ∧
      tx' = { tx with proof := tx'.proof } ∧ tx'.proof.length = 97 ∧
      UnmarshalFull SignatureProof.ty prev tx'.proof =
        .ok (SignatureProof.toVal ⟨w.publicKey, ⟨⟨0, []⟩, []⟩, sig⟩) ∧
      SignatureProof.signerAddress H ⟨w.publicKey, ⟨⟨0, []⟩, []⟩, sig⟩ = .ok (w.getAddress H).1 := by
  have hs := sign_marshal ((Tx.extended tx).content H)
  have hpl := w.publicKey.property
  let sig := S.sign w.privateKey (signLayout ((Tx.extended tx).content H))
  have hsl := sig.property
  have he := sigProof_enc w.publicKey sig
  have hm : Marshal [] SignatureProof.ty (SignatureProof.toVal ⟨w.publicKey, ⟨⟨0, []⟩, []⟩, sig⟩) =
      .ok (w.publicKey.val ++ 0 :: sig.val) := by
    have := marshal_spec SignatureProof.ty {} _ _ [] sigProof_good he
    rwa [List.nil_append] at this
  refine ⟨{ tx with proof := w.publicKey.val ++ 0 :: sig.val }, sig, _, ?_, hs, rfl, rfl, ?_, ?_, ?_⟩
  · simp only [Wallet.signExtendedTx, Wallet.signTx, hs]
    rw [show S.sign w.privateKey (signLayout ((Tx.extended tx).content H)) = sig from rfl, hm]
  · simp only [List.length_append, List.length_cons]; omega
  · have hd := decode_spec noLimit (fun _ => rfl) SignatureProof.ty {} _ prev _ [] sigProof_good he
    rw [List.append_nil] at hd
    unfold UnmarshalFull Unmarshal
    rw [hd]
    simp
  · rw [(C50_address H w.privateKey w hw).2.2]
    simp only [SignatureProof.signerAddress, MerklePath.computeRoot, computeRootLoop, publicKeyToAddress]
    congr 1
    apply barr_inj
    have hl := (H w.publicKey.val).property
    simp only [BArr.copy]
    simp [hl, List.take_take]

/-- C50. A basic transaction of the wallet is signed over its signing bytes, changing only the signature; a transaction of
any other sender is refused. -/
theorem C50_basic (S : SigScheme) (H : Bytes → Hash32) (w : Wallet) (tx : BasicTx) :
    (tx.senderPubKey ≠ w.publicKey → w.signBasicTx S H tx = .err .wrongSender) ∧
    (tx.senderPubKey = w.publicKey → ∃ b, signingBytes H (.basic tx) = .ok b ∧
      w.signBasicTx S H tx = .ok { tx with signature := S.sign w.privateKey b }) := by
  constructor
  · intro h
    simp [Wallet.signBasicTx, Ne.symm h]
  · intro h
    refine ⟨_, sign_marshal _, ?_⟩
    simp only [Wallet.signBasicTx, h, ne_eq, not_true, if_false, Wallet.signTx]
    rw [sign_marshal]

example (H : Bytes → Hash32) (priv : BArr 64) (tx : BasicTx) (S : SigScheme) : WalletOk H (newWallet priv) ∧
    ∃ b, (newWallet priv).signBasicTx S H { tx with senderPubKey := pubOf priv } = .ok b := by
  refine ⟨⟨rfl, Or.inl rfl⟩, ?_⟩
  obtain ⟨b, _, h⟩ := (C50_basic S H (newWallet priv) { tx with senderPubKey := pubOf priv }).2 rfl
  exact ⟨_, h⟩

/-! ## C51 -/

/-- A signature scheme whose signatures verify under the matching public key. -/
def SigScheme.Correct (S : SigScheme) : Prop := ∀ sk m, S.verify (pubOf sk) m (S.sign sk m) = true

/-- C51. A signed peer address verifies; the verdict depends on protocol, services, timestamp, key and signature only, so
the net address, distance and everything else can be replaced. -/
theorem C51_verify (S : SigScheme) (hS : S.Correct) (pk : BArr 64) (p : PeerAddressHeader) :
    (p.sign S pk).verify S = true ∧
    (p.sign S pk = { p with publicKey := (p.sign S pk).publicKey, signature := (p.sign S pk).signature }) ∧
    ∀ q : PeerAddressHeader, q.protocol = p.protocol → q.services = p.services → q.timestamp = p.timestamp →
      q.publicKey = (p.sign S pk).publicKey → q.signature = (p.sign S pk).signature → q.verify S = true := by
  refine ⟨hS pk _, rfl, ?_⟩
  intro q h1 h2 h3 h4 h5
  unfold PeerAddressHeader.verify PeerAddressHeader.signedBytes
  rw [h1, h2, h3, h4, h5]
  exact hS pk _

/-- C51. The signed bytes are 13 bytes in big-endian order and determine protocol, services and timestamp. -/
theorem C51_signed_bytes (p q : PeerAddressHeader) : p.signedBytes.length = 13 ∧
    p.signedBytes = digits 1 p.protocol.toNat ++ digits 4 p.services.toNat ++ digits 8 p.timestamp.toNat ∧
    (p.signedBytes = q.signedBytes ↔ p.protocol = q.protocol ∧ p.services = q.services ∧ p.timestamp = q.timestamp) := by
  have hl : ∀ p : PeerAddressHeader, p.signedBytes = digits 1 p.protocol.toNat ++ digits 4 p.services.toNat ++
      digits 8 p.timestamp.toNat := by
    intro p; simp only [PeerAddressHeader.signedBytes, putBE_eq_digits]
  refine ⟨by rw [hl]; simp [digits_length], hl p, ?_, ?_⟩
  · intro h
    rw [hl, hl, List.append_assoc, List.append_assoc] at h
    obtain ⟨h1, h⟩ := app_inj (digits_length _ _) (digits_length _ _) h
    obtain ⟨h2, h3⟩ := app_inj (digits_length _ _) (digits_length _ _) h
    exact ⟨UInt8.toNat_inj.mp (digits_inj (by exact UInt8.toNat_lt _) (by exact UInt8.toNat_lt _) h1),
      UInt32.toNat_inj.mp (digits_inj (by exact UInt32.toNat_lt _) (by exact UInt32.toNat_lt _) h2),
      UInt64.toNat_inj.mp (digits_inj (by exact UInt64.toNat_lt _) (by exact UInt64.toNat_lt _) h3)⟩
  · rintro ⟨h1, h2, h3⟩
    unfold PeerAddressHeader.signedBytes
    rw [h1, h2, h3]

/-- C51. A peer address verifies exactly if the scheme accepts its signature under its key for the 13 bytes. -/
theorem C51_verify_iff (S : SigScheme) (p : PeerAddressHeader) : p.verify S = true ↔
    S.verify p.publicKey (digits 1 p.protocol.toNat ++ digits 4 p.services.toNat ++ digits 8 p.timestamp.toNat)
      p.signature = true := by
  rw [← (C51_signed_bytes p p).2.1]; rfl

/-- A correct scheme exists. -/
example : SigScheme.Correct ⟨fun _ _ => BArr.zero 64, fun _ _ _ => true⟩ := fun _ _ => rfl

/-! ## C52 -/

/-- The specification of a Merkle path: fold the siblings from the leaf up; `true` puts the sibling to the left. -/
def rootOf (H : Bytes → Hash32) (leaf : Bytes) : List (Bool × Hash32) → Hash32
  | path => path.foldl (fun root s => if s.1 then H (s.2.val ++ root.val) else H (root.val ++ s.2.val)) (H leaf)

/-- The inputs the hash function gets while the root of a path is computed: first the leaf, then one pair of hashes per
sibling. -/
def hashedOn (H : Bytes → Hash32) (input : Bytes) : List (Bool × Hash32) → List Bytes
  | [] => [input]
  | s :: path => input :: hashedOn H (if s.1 then s.2.val ++ (H input).val else (H input).val ++ s.2.val) path

/-- A hash collision between an input of one computation and an input of the other. (Collisions exist for every function to 32
bytes; what matters is that one of these two short lists contains one.) -/
def CollisionBetween (H : Bytes → Hash32) (xs ys : List Bytes) : Prop := ∃ a ∈ xs, ∃ b ∈ ys, a ≠ b ∧ H a = H b

theorem computeRootLoop_spec (H : Bytes → Hash32) (br : BitSet) : ∀ (hs : List Hash32) (bs : List Bool) (i : Nat) (root : Hash32),
    bs.length = hs.length → (∀ j (hj : j < bs.length), br.bit (UInt8.ofNat (i + j)) = .ok bs[j]) →
    computeRootLoop H br i root hs =
      .ok ((bs.zip hs).foldl (fun root s => if s.1 then H (s.2.val ++ root.val) else H (root.val ++ s.2.val)) root) := by
  intro hs
  induction hs with
  | nil => intro bs i root hl _; cases bs with
    | nil => rfl
    | cons _ _ => cases hl
  | cons h hs ih =>
    intro bs i root hl hb
    cases bs with
    | nil => cases hl
    | cons x bs =>
      have h0 := hb 0 (by simp)
      simp only [Nat.add_zero, List.getElem_cons_zero] at h0
      have ht : ∀ j (hj : j < bs.length), br.bit (UInt8.ofNat (i + 1 + j)) = .ok bs[j] := by
        intro j hj
        have := hb (j + 1) (by simp; omega)
        rw [show i + (j + 1) = i + 1 + j by omega] at this
        simpa using this
      simp only [computeRootLoop, h0, List.zip_cons_cons, List.foldl_cons]
      cases x
      · simp only [Bool.false_eq_true, if_false]
        exact ih bs (i + 1) _ (by simpa using hl) ht
      · simp only [if_true]
        exact ih bs (i + 1) _ (by simpa using hl) ht

/-- C52. If the branch bits can be read, the computed root is the fold of the path. -/
theorem C52_root (H : Bytes → Hash32) (mp : MerklePath) (leaf : Bytes) (bs : List Bool)
    (hl : bs.length = mp.hashes.length) (hb : ∀ j (hj : j < bs.length), mp.branches.bit (UInt8.ofNat j) = .ok bs[j]) :
    mp.computeRoot H leaf = .ok (rootOf H leaf (bs.zip mp.hashes)) := by
  unfold MerklePath.computeRoot rootOf
  exact computeRootLoop_spec H mp.branches mp.hashes bs 0 _ hl (by simpa using hb)

/-- C52. With no hashes the signer address is the address of the public key. -/
theorem C52_empty (H : Bytes → Hash32) (s : SignatureProof) (h : s.merklePath.hashes = []) :
    s.signerAddress H = .ok (publicKeyToAddress H s.publicKey) := by
  simp only [SignatureProof.signerAddress, MerklePath.computeRoot, h, computeRootLoop, publicKeyToAddress]
  congr 1
  apply barr_inj
  have hl := (H s.publicKey.val).property
  simp only [BArr.copy]
  simp [hl, List.take_take]

example (H : Bytes → Hash32) (key : BArr 32) (sig : BArr 64) :
    SignatureProof.signerAddress H ⟨key, ⟨⟨0, []⟩, []⟩, sig⟩ = .ok (publicKeyToAddress H key) := C52_empty H _ rfl

theorem rootOf_snoc (H : Bytes → Hash32) (leaf : Bytes) (p : List (Bool × Hash32)) (s : Bool × Hash32) :
    rootOf H leaf (p ++ [s]) = if s.1 then H (s.2.val ++ (rootOf H leaf p).val) else H ((rootOf H leaf p).val ++ s.2.val) := by
  simp [rootOf]

theorem hashedOn_snoc (H : Bytes → Hash32) (p : List (Bool × Hash32)) (s : Bool × Hash32) : ∀ leaf : Bytes,
    hashedOn H leaf (p ++ [s]) = hashedOn H leaf p ++
      [if s.1 then s.2.val ++ (rootOf H leaf p).val else (rootOf H leaf p).val ++ s.2.val] := by
  induction p with
  | nil => intro leaf; simp [hashedOn, rootOf]
  | cons r p ih =>
    intro leaf
    simp only [List.cons_append, hashedOn, ih, rootOf, List.foldl_cons]
    cases r.1 <;> simp

theorem leaf_mem_hashedOn (H : Bytes → Hash32) (leaf : Bytes) (p : List (Bool × Hash32)) : leaf ∈ hashedOn H leaf p := by
  cases p <;> simp [hashedOn]

theorem rootOf_node (H : Bytes → Hash32) (leaf : Bytes) (p : List (Bool × Hash32)) (s : Bool × Hash32) :
    ∃ b ∈ hashedOn H leaf (p ++ [s]), b.length = 64 ∧ rootOf H leaf (p ++ [s]) = H b := by
  rw [rootOf_snoc, hashedOn_snoc]
  have h1 := s.2.property
  have h2 := (rootOf H leaf p).property
  cases s.1
  · exact ⟨(rootOf H leaf p).val ++ s.2.val, by simp, by rw [List.length_append]; omega,
      by simp only [Bool.false_eq_true, if_false]⟩
  · exact ⟨s.2.val ++ (rootOf H leaf p).val, by simp, by rw [List.length_append]; omega, by simp only [if_true]⟩

theorem CollisionBetween.symm {H : Bytes → Hash32} {xs ys : List Bytes} (h : CollisionBetween H xs ys) :
    CollisionBetween H ys xs := by
  obtain ⟨a, ha, b, hb, hn, he⟩ := h
  exact ⟨b, hb, a, ha, Ne.symm hn, he.symm⟩

/-- C52, specification level: if the directions of one path, seen from the root, begin with those of the other, equal roots
mean equal paths and leaves. -/
theorem rootOf_binding (H : Bytes → Hash32) (k1 k2 : BArr 32) : ∀ (n : Nat) (p q : List (Bool × Hash32)),
    ¬ CollisionBetween H (hashedOn H k1.val p) (hashedOn H k2.val q) →
    p.length = n → p.map Prod.fst <:+ q.map Prod.fst → rootOf H k1.val p = rootOf H k2.val q → k1 = k2 ∧ p = q := by
  intro n
  induction n with
  | zero =>
    intro p q hc hp _ h
    have : p = [] := List.length_eq_zero_iff.mp hp
    subst this
    rcases List.eq_nil_or_concat q with rfl | ⟨q', s, rfl⟩
    · refine ⟨barr_inj ?_, rfl⟩
      refine Classical.byContradiction fun hne => ?_
      exact hc ⟨_, leaf_mem_hashedOn _ _ _, _, leaf_mem_hashedOn _ _ _, hne, h⟩
    · rw [List.concat_eq_append] at *
      obtain ⟨b, hm, hb, he⟩ := rootOf_node H k2.val q' s
      rw [he] at h
      refine absurd ⟨_, leaf_mem_hashedOn _ _ _, b, hm, ?_, h⟩ hc
      intro e
      have := k1.property
      rw [e] at this
      omega
  | succ n ih =>
    intro p q hc hp hs h
    rcases List.eq_nil_or_concat p with rfl | ⟨p', s, rfl⟩
    · cases hp
    rw [List.concat_eq_append] at *
    have hp' : p'.length = n := by simpa using hp
    rcases List.eq_nil_or_concat q with rfl | ⟨q', r, rfl⟩
    · obtain ⟨z, hz⟩ := hs
      simp at hz
    rw [List.concat_eq_append] at *
    have hs' : p'.map Prod.fst <:+ q'.map Prod.fst ∧ s.1 = r.1 := by
      obtain ⟨z, hz⟩ := hs
      simp only [List.map_append, List.map_cons, List.map_nil, ← List.append_assoc] at hz
      obtain ⟨h1, h2⟩ := List.append_inj' hz rfl
      exact ⟨⟨z, h1⟩, by simpa using h2⟩
    have e1 := s.2.property
    have e2 := r.2.property
    have e3 := (rootOf H k1.val p').property
    have e4 := (rootOf H k2.val q').property
    have hc' : ¬ CollisionBetween H (hashedOn H k1.val p') (hashedOn H k2.val q') := by
      rintro ⟨a, ha, b, hb, hn, he⟩
      exact hc ⟨a, by rw [hashedOn_snoc]; simp [ha], b, by rw [hashedOn_snoc]; simp [hb], hn, he⟩
    have inj : ∀ a b : Bytes, a ∈ hashedOn H k1.val (p' ++ [s]) → b ∈ hashedOn H k2.val (q' ++ [r]) → H a = H b → a = b := by
      intro a b ha hb hab
      refine Classical.byContradiction fun he => ?_
      exact hc ⟨a, ha, b, hb, he, hab⟩
    rw [hashedOn_snoc, hashedOn_snoc] at inj
    rw [rootOf_snoc, rootOf_snoc, hs'.2] at h
    rw [hs'.2] at inj
    have key : s.2 = r.2 ∧ rootOf H k1.val p' = rootOf H k2.val q' := by
      cases hr : r.1
      · rw [hr] at h inj
        simp only [Bool.false_eq_true, if_false] at h inj
        obtain ⟨a, b⟩ := app_inj e3 e4 (inj _ _ (by simp) (by simp) h)
        exact ⟨barr_inj b, barr_inj a⟩
      · rw [hr] at h inj
        simp only [if_true] at h inj
        obtain ⟨a, b⟩ := app_inj e1 e2 (inj _ _ (by simp) (by simp) h)
        exact ⟨barr_inj a, barr_inj b⟩
    obtain ⟨hk, hpq⟩ := ih p' q' hc' hp' hs'.1 key.2
    refine ⟨hk, ?_⟩
    rw [hpq, show s = r from Prod.ext hs'.2 key.1]

/-- C52. Two signature proofs whose paths give the same root and whose branch directions, compared from the root down, do
not contradict each other (one list ends in the other) have the same public key and the same path - or one of the inputs hashed
for the first root collides with one hashed for the second. In particular no two keys and no two path lengths fit one root and
one set of directions. -/
theorem C52_binding (H : Bytes → Hash32) (k1 k2 : BArr 32) (m1 m2 : MerklePath) (b1 b2 : List Bool) (root : Hash32)
    (l1 : b1.length = m1.hashes.length) (l2 : b2.length = m2.hashes.length)
    (d1 : ∀ j (hj : j < b1.length), m1.branches.bit (UInt8.ofNat j) = .ok b1[j])
    (d2 : ∀ j (hj : j < b2.length), m2.branches.bit (UInt8.ofNat j) = .ok b2[j])
    (h1 : m1.computeRoot H k1.val = .ok root) (h2 : m2.computeRoot H k2.val = .ok root)
    (hd : b1 <:+ b2 ∨ b2 <:+ b1) :
    (k1 = k2 ∧ m1.hashes = m2.hashes ∧ b1 = b2) ∨
      CollisionBetween H (hashedOn H k1.val (b1.zip m1.hashes)) (hashedOn H k2.val (b2.zip m2.hashes)) := by
  by_cases hc : CollisionBetween H (hashedOn H k1.val (b1.zip m1.hashes)) (hashedOn H k2.val (b2.zip m2.hashes))
  · exact Or.inr hc
  left
  rw [C52_root H m1 k1.val b1 l1 d1] at h1
  rw [C52_root H m2 k2.val b2 l2 d2] at h2
  have e1 := Out.ok.inj h1
  have e2 := Out.ok.inj h2
  have f1 : (b1.zip m1.hashes).map Prod.fst = b1 := List.map_fst_zip (by omega)
  have f2 : (b2.zip m2.hashes).map Prod.fst = b2 := List.map_fst_zip (by omega)
  have g1 : (b1.zip m1.hashes).map Prod.snd = m1.hashes := List.map_snd_zip (by omega)
  have g2 : (b2.zip m2.hashes).map Prod.snd = m2.hashes := List.map_snd_zip (by omega)
  have hfin : k1 = k2 ∧ b1.zip m1.hashes = b2.zip m2.hashes := by
    rcases hd with hd | hd
    · exact rootOf_binding H k1 k2 _ _ _ hc rfl (by rw [f1, f2]; exact hd) (e1.trans e2.symm)
    · obtain ⟨a, b⟩ := rootOf_binding H k2 k1 _ _ _ (fun h => hc h.symm) rfl (by rw [f1, f2]; exact hd) (e2.trans e1.symm)
      exact ⟨a.symm, b.symm⟩
  refine ⟨hfin.1, ?_, ?_⟩
  · rw [← g1, ← g2, hfin.2]
  · rw [← f1, ← f2, hfin.2]

/-- The collision clause is not automatic: with the function that keeps the first 32 bytes, the inputs hashed for a path with
one sibling to the left have no collision among them if the sibling is not the key. -/
example (k x : BArr 32) (hne : x ≠ k) : let H : Bytes → Hash32 := fun b => BArr.copy 32 b
    ¬ CollisionBetween H (hashedOn H k.val [(true, x)]) (hashedOn H k.val [(true, x)]) := by
  intro H
  have e1 : H k.val = k := by
    apply barr_inj; simp [H, BArr.copy, k.property, List.take_of_length_le]
  have e2 : H (x.val ++ k.val) = x := by
    apply barr_inj; simp [H, BArr.copy, x.property, List.take_left' x.property]
  rintro ⟨a, ha, b, hb, hn, he⟩
  simp only [hashedOn, if_true, e1, List.mem_cons, List.not_mem_nil, or_false] at ha hb
  rcases ha with rfl | rfl <;> rcases hb with rfl | rfl
  · exact hn rfl
  · exact hne (by rw [← e2, ← he, e1])
  · exact hne (by rw [← e2, he, e1])
  · exact hn rfl

/-- C52. Proofs that come off the wire with at most 248 branches have all their bits; the root is always computed. -/
theorem C52_decoded (H : Bytes → Hash32) (d leaf : Bytes) (n : Nat) (mp : MerklePath) (h : MerklePath.dec d = .ok (n, mp))
    (hl : mp.branches.len.toNat < 249) : ∃ (bs : List Bool) (root : Hash32), bs.length = mp.hashes.length ∧
      (∀ j (hj : j < bs.length), mp.branches.bit (UInt8.ofNat j) = .ok bs[j]) ∧ mp.computeRoot H leaf = .ok root := by
  obtain ⟨h1, h2, _, rest, hd⟩ := MerklePath.dec_ok h
  have hb : BitSet.dec d = .ok (1 + mp.branches.bits.length, mp.branches) := by
    rw [hd, List.append_assoc]; exact BitSet.dec_spec _ h1 _
  have hbit := (C46_bits_partial d _ _ hb hl).2.2.2
  let f : Nat → Bool := fun j => match mp.branches.bit (UInt8.ofNat j) with | .ok x => x | _ => false
  have hf : ∀ j, j < mp.hashes.length → mp.branches.bit (UInt8.ofNat j) = .ok (f j) := by
    intro j hj
    have hj' : (UInt8.ofNat j).toNat = j := by
      rw [UInt8.toNat_ofNat']; exact Nat.mod_eq_of_lt (by omega)
    obtain ⟨x, _, hx⟩ := hbit (UInt8.ofNat j) (by rw [UInt8.lt_iff_toNat_lt, hj']; omega)
    simp only [f, hx]
  have hlen : ((List.range mp.hashes.length).map f).length = mp.hashes.length := by simp
  have hall : ∀ j (hj : j < ((List.range mp.hashes.length).map f).length),
      mp.branches.bit (UInt8.ofNat j) = .ok ((List.range mp.hashes.length).map f)[j] := by
    intro j hj
    rw [List.getElem_map, List.getElem_range]
    exact hf j (by simpa using hj)
  exact ⟨_, _, hlen, hall, C52_root H mp leaf _ hlen hall⟩

/-- C52 does not extend to longer paths: every path with 249 to 255 declared branches that decodes crashes the computation
of its root. -/
theorem C52_decoded_violated (H : Bytes → Hash32) (d leaf : Bytes) (n : Nat) (mp : MerklePath)
    (h : MerklePath.dec d = .ok (n, mp)) (hl : 249 ≤ mp.branches.len.toNat) : mp.computeRoot H leaf = .panic := by
  obtain ⟨h1, h2, _, _⟩ := MerklePath.dec_ok h
  rw [bitSet_size_of_ge _ hl] at h1
  unfold MerklePath.computeRoot
  cases hh : mp.hashes with
  | nil => rw [hh] at h2; simp at h2; omega
  | cons x xs =>
    have : mp.branches.bits = [] := List.length_eq_zero_iff.mp h1
    simp [computeRootLoop, BitSet.bit, this]

example (H : Bytes → Hash32) (k : BArr 32) (h : Hash32) : ∃ root,
    (MerklePath.mk ⟨1, [0x80]⟩ [h]).computeRoot H k.val = .ok root ∧ root = H (h.val ++ (H k.val).val) :=
  ⟨_, rfl, rfl⟩

end Nimiq.Wire
