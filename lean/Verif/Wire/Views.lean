import Verif.Wire.HeapModel
/-!
# C127: what transactions hand out, and the transaction itself

`AsTxContent`, `AsExtendedTx`, `GetSender` and `GetRecipient` return values with slices and pointers.  Here a transaction has its
memory: the arrays inside it and the slices it holds are references into a heap (`Beserial/HeapModel.lean`), an assignment of
an array copies it to a new one, an assignment of a slice or a pointer copies the reference.
-/
namespace Nimiq.Wire.Views
open Beserial

/-- `s[i] = b` -/
def write (h : Heap) (r : Ref) (i : Nat) (b : UInt8) : Heap := h.set r.arr ((h[r.arr]?.getD []).set (r.off + i) b)

/-- `copy(s, src)`, where the lengths agree -/
def overwrite (h : Heap) (r : Ref) (src : Bytes) : Heap :=
  h.set r.arr ((h[r.arr]?.getD []).take r.off ++ src ++ (h[r.arr]?.getD []).drop (r.off + r.len))

/-- A new variable that holds these bytes. -/
def new (h : Heap) (b : Bytes) : Heap × Ref := (h ++ [b], ⟨h.length, 0, b.length⟩)

/-- tx_basic.go:4-12 `BasicTx`, tx_extended.go:5-17 `ExtendedTx`: numbers, and references to the arrays in the struct and to
what the slices show -/
inductive TxMem where
  | basic (senderPubKey recipient signature : Ref) (value fee : UInt64) (validityStartHeight : UInt32) (networkID : UInt8)
  | extended (data sender : Ref) (senderType : UInt8) (recipient : Ref) (recipientType : UInt8) (value fee : UInt64)
      (validityStartHeight : UInt32) (networkID flags : UInt8) (proof : Ref)

/-- The transaction that a reader of the memory sees. -/
def TxMem.load (h : Heap) : TxMem → Tx
  | .basic k r s v f e n => .basic ⟨BArr.copy 32 (k.bytes h), BArr.copy 20 (r.bytes h), v, f, e, n, BArr.copy 64 (s.bytes h)⟩
  | .extended d s st r rt v f e n fl p =>
    .extended ⟨d.bytes h, BArr.copy 20 (s.bytes h), st, BArr.copy 20 (r.bytes h), rt, v, f, e, n, fl, p.bytes h⟩

/-- The references of a transaction. -/
def TxMem.refs : TxMem → List Ref
  | .basic k r s .. => [k, r, s]
  | .extended d s _ r _ _ _ _ _ _ p => [d, s, r, p]

/-- A transaction as programs have them: the references lie in their arrays, the arrays have their lengths, and no slice points
into the struct's own arrays, nor Data and Proof into each other. -/
def TxMem.Ok (h : Heap) (t : TxMem) : Prop :=
  (∀ r ∈ t.refs, r.Valid h) ∧ (t.refs.map Ref.arr).Nodup ∧
  match t with
  | .basic k r s .. => k.len = 32 ∧ r.len = 20 ∧ s.len = 64
  | .extended _ s _ r .. => s.len = 20 ∧ r.len = 20

/-- tx.go:77-88 `TxContent` -/
structure ContentMem where
  data : Ref
  sender : Ref
  senderType : UInt8
  recipient : Ref
  recipientType : UInt8
  value : UInt64
  fee : UInt64
  validityStartHeight : UInt32
  networkID : UInt8
  flags : UInt8

/-- The content that a reader of the memory sees. -/
def ContentMem.load (h : Heap) (c : ContentMem) : TxContent :=
  ⟨c.data.bytes h, BArr.copy 20 (c.sender.bytes h), c.senderType, BArr.copy 20 (c.recipient.bytes h), c.recipientType, c.value,
    c.fee, c.validityStartHeight, c.networkID, c.flags⟩

/-- utils.go `PublicKeyToAddress(&t.SenderPubKey)`, the bytes -/
def addressBytes (H : Bytes → Hash32) (h : Heap) (k : Ref) : Bytes := (publicKeyToAddress H (BArr.copy 32 (k.bytes h))).val

/-- tx_basic.go:41-54, tx_extended.go:34-47 `AsTxContent` -/
def asTxContent (H : Bytes → Hash32) (h : Heap) : TxMem → Heap × ContentMem
  | .basic k r _ v f e n =>
    let (h, sender) := new h (addressBytes H h k)
    let (h, recipient) := new h (r.bytes h)
    (h, ⟨Ref.nil, sender, 0, recipient, 0, v, f, e, n, 0⟩)
  | .extended d s st r rt v f e n fl _ =>
    let (h, sender) := new h (s.bytes h)
    let (h, recipient) := new h (r.bytes h)
    (h, ⟨d, sender, st, recipient, rt, v, f, e, n, fl⟩)

/-- tx_basic.go:24-38, tx_extended.go:29-31 `AsExtendedTx` -/
def asExtendedTx (H : Bytes → Hash32) (h : Heap) : TxMem → Heap × TxMem
  | .basic k r s v f e n =>
    let (h, sender) := new h (addressBytes H h k)
    let (h, recipient) := new h (r.bytes h)
    (h, .extended Ref.nil sender 0 recipient 0 v f e n 0 s)
  | .extended d s st r rt v f e n fl p =>
    let (h, sender) := new h (s.bytes h)
    let (h, recipient) := new h (r.bytes h)
    (h, .extended d sender st recipient rt v f e n fl p)

/-- tx_basic.go:56-61, tx_extended.go:49-51 `GetSender` -/
def getSender (H : Bytes → Hash32) (h : Heap) : TxMem → Heap × Ref × UInt8
  | .basic k .. =>
    let (h, addr) := new h (addressBytes H h k)
    (h, addr, 0)
  | .extended _ s st .. => (h, s, st)

/-- tx_basic.go:63-65, tx_extended.go:53-55 `GetRecipient` -/
def getRecipient : TxMem → Ref × UInt8
  | .basic _ r .. => (r, 0)
  | .extended _ _ _ r rt .. => (r, rt)

/-- wallet/basic.go:76-83 `SignBasicTx`: the effect on the transaction, `sig` being the signature -/
def signBasicTx (h : Heap) (sig : BArr 64) : TxMem → Heap
  | .basic _ _ s .. => overwrite h s sig.val
  | .extended .. => h

/-! ## Proofs -/

theorem bytes_grow {h : Heap} {r : Ref} (hr : r.Valid h) (g : Heap) : r.bytes (h ++ g) = r.bytes h := by
  unfold Ref.bytes
  rw [List.getElem?_append_left hr.1]

theorem valid_grow {h : Heap} {r : Ref} (hr : r.Valid h) (g : Heap) : r.Valid (h ++ g) := by
  refine ⟨by have := hr.1; rw [List.length_append]; omega, ?_⟩
  rw [List.getElem?_append_left hr.1]; exact hr.2

theorem bytes_new (h : Heap) (b : Bytes) : (new h b).2.bytes (new h b).1 = b := by
  simp [new, Ref.bytes]

theorem bytes_length {h : Heap} {r : Ref} (hr : r.Valid h) : (r.bytes h).length = r.len := by
  have := hr.2
  simp [Ref.bytes]; omega

theorem copy_self {n : Nat} (b : BArr n) : BArr.copy n b.val = b := by
  apply Subtype.ext
  simp [BArr.copy, b.property, List.take_of_length_le (Nat.le_of_eq b.property)]

theorem copy_val {n : Nat} {b : Bytes} (h : b.length = n) : (BArr.copy n b).val = b := by
  simp [BArr.copy, h, List.take_of_length_le (Nat.le_of_eq h)]

/-- Writing elsewhere. -/
theorem bytes_write_ne {h : Heap} {r q : Ref} (i : Nat) (b : UInt8) (hne : q.arr ≠ r.arr) :
    q.bytes (write h r i b) = q.bytes h := by
  unfold Ref.bytes write
  rw [List.getElem?_set_ne (fun e => hne e.symm)]

/-- Writing here. -/
theorem bytes_write_same {h : Heap} {r : Ref} (hr : r.Valid h) {i : Nat} (hi : i < r.len) (b : UInt8) :
    r.bytes (write h r i b) = (r.bytes h).set i b := by
  unfold Ref.bytes write
  rw [List.getElem?_set_self hr.1]
  simp only [Option.getD_some]
  rw [List.drop_set, if_neg (by omega), List.take_set, show r.off + i - r.off = i by omega]

theorem bytes_overwrite_ne {h : Heap} {r q : Ref} (src : Bytes) (hne : q.arr ≠ r.arr) :
    q.bytes (overwrite h r src) = q.bytes h := by
  unfold Ref.bytes overwrite
  rw [List.getElem?_set_ne (fun e => hne e.symm)]

theorem bytes_overwrite_same {h : Heap} {r : Ref} (hr : r.Valid h) {src : Bytes} (hs : src.length = r.len) :
    r.bytes (overwrite h r src) = src := by
  unfold Ref.bytes overwrite
  rw [List.getElem?_set_self hr.1]
  have h2 := hr.2
  simp only [Option.getD_some]
  have hl : (List.take r.off (h[r.arr]?.getD [])).length = r.off := by rw [List.length_take]; omega
  rw [List.append_assoc, List.drop_append_of_le_length (by omega), List.drop_of_length_le (by omega), List.nil_append,
    List.take_append_of_le_length (by omega), List.take_of_length_le (by omega)]

/-- A transaction is not affected by new variables. -/
theorem load_grow {h : Heap} {t : TxMem} (ht : t.Ok h) (g : Heap) : t.load (h ++ g) = t.load h := by
  have hv := ht.1
  cases t with
  | basic k r s v f e n =>
    simp only [TxMem.refs, List.mem_cons, List.not_mem_nil, or_false, forall_eq_or_imp, forall_eq] at hv
    simp only [TxMem.load, bytes_grow hv.1, bytes_grow hv.2.1, bytes_grow hv.2.2]
  | extended d s st r rt v f e n fl p =>
    simp only [TxMem.refs, List.mem_cons, List.not_mem_nil, or_false, forall_eq_or_imp, forall_eq] at hv
    simp only [TxMem.load, bytes_grow hv.1, bytes_grow hv.2.1, bytes_grow hv.2.2.1, bytes_grow hv.2.2.2]

/-- A transaction is not affected by writes to other arrays. -/
theorem load_write {h : Heap} {t : TxMem} {q : Ref} (hq : ∀ r ∈ t.refs, r.arr ≠ q.arr) (i : Nat) (b : UInt8) :
    t.load (write h q i b) = t.load h := by
  cases t with
  | basic k r s v f e n =>
    simp only [TxMem.refs, List.mem_cons, List.not_mem_nil, or_false, forall_eq_or_imp, forall_eq] at hq
    simp only [TxMem.load, bytes_write_ne i b hq.1, bytes_write_ne i b hq.2.1, bytes_write_ne i b hq.2.2]
  | extended d s st r rt v f e n fl p =>
    simp only [TxMem.refs, List.mem_cons, List.not_mem_nil, or_false, forall_eq_or_imp, forall_eq] at hq
    simp only [TxMem.load, bytes_write_ne i b hq.1, bytes_write_ne i b hq.2.1, bytes_write_ne i b hq.2.2.1,
      bytes_write_ne i b hq.2.2.2]

theorem fresh_ne {h : Heap} {t : TxMem} (ht : t.Ok h) {q : Ref} (hq : h.length ≤ q.arr) : ∀ r ∈ t.refs, r.arr ≠ q.arr := by
  intro r hr e
  have := (ht.1 r hr).1
  omega

/-- The heap after two new variables, and their contents. -/
theorem two_new (h : Heap) (a b : Bytes) :
    (new (new h a).1 b).1 = h ++ [a, b] ∧ (new h a).2.arr = h.length ∧ (new (new h a).1 b).2.arr = h.length + 1 ∧
    (new h a).2.bytes (h ++ [a, b]) = a ∧ (new (new h a).1 b).2.bytes (h ++ [a, b]) = b := by
  refine ⟨by simp [new], rfl, by simp [new], ?_, ?_⟩
  · simp [new, Ref.bytes]
  · simp [new, Ref.bytes]

/-! ## C127 -/

/-- C127, the values. What `AsTxContent`, `AsExtendedTx`, `GetSender` and `GetRecipient` return are the values of the other
properties (C39, C49, C72), and calling them does not change the transaction. -/
theorem C127_values_partial (H : Bytes → Hash32) {h : Heap} {t : TxMem} (ht : t.Ok h) :
    ((asTxContent H h t).2.load (asTxContent H h t).1 = (t.load h).content H ∧ t.load (asTxContent H h t).1 = t.load h) ∧
    ((asExtendedTx H h t).2.load (asExtendedTx H h t).1 = .extended ((t.load h).asExtended H) ∧
      t.load (asExtendedTx H h t).1 = t.load h) ∧
    (((getSender H h t).2.1.bytes (getSender H h t).1, (getSender H h t).2.2) =
      (((t.load h).getSender H).1.val, ((t.load h).getSender H).2) ∧ t.load (getSender H h t).1 = t.load h) ∧
    ((getRecipient t).1.bytes h, (getRecipient t).2) = ((t.load h).getRecipient.1.val, (t.load h).getRecipient.2) := by
  have hv := ht.1
  have hl := ht.2.2
  have hg := load_grow ht
  cases t with
  | basic k r s v f e n =>
    simp only [TxMem.refs, List.mem_cons, List.not_mem_nil, or_false, forall_eq_or_imp, forall_eq] at hv
    simp only [] at hl
    obtain ⟨e1, e2, e3, e4, e5⟩ := two_new h (addressBytes H h k) (r.bytes h)
    have er : r.bytes (new h (addressBytes H h k)).1 = r.bytes h := bytes_grow hv.2.1 _
    have es : s.bytes (h ++ [addressBytes H h k, r.bytes h]) = s.bytes h := bytes_grow hv.2.2 _
    have hr := copy_val (n := 20) ((bytes_length hv.2.1).trans hl.2.1)
    have hs := copy_val (n := 64) ((bytes_length hv.2.2).trans hl.2.2)
    have hn : Ref.nil.bytes (h ++ [addressBytes H h k, r.bytes h]) = [] := by simp [Ref.nil, Ref.bytes]
    refine ⟨⟨?_, ?_⟩, ⟨?_, ?_⟩, ⟨?_, ?_⟩, ?_⟩
    · simp only [asTxContent, er, e1, ContentMem.load, e4, e5, TxMem.load, Tx.content, addressBytes, copy_self, hn] at *
    · simp only [asTxContent, er, e1]; exact hg _
    · simp only [asExtendedTx, er, e1, TxMem.load, Tx.asExtended] at *
      rw [e4, e5, es, hn, addressBytes, copy_self, hs]
    · simp only [asExtendedTx, er, e1]; exact hg _
    · simp only [getSender, bytes_new]; rfl
    · exact hg _
    · simp only [getRecipient, TxMem.load, Tx.getRecipient, hr]
  | extended d s st r rt v f e n fl p =>
    simp only [TxMem.refs, List.mem_cons, List.not_mem_nil, or_false, forall_eq_or_imp, forall_eq] at hv
    simp only [] at hl
    obtain ⟨e1, e2, e3, e4, e5⟩ := two_new h (s.bytes h) (r.bytes h)
    have er : r.bytes (new h (s.bytes h)).1 = r.bytes h := bytes_grow hv.2.2.1 _
    have ed : d.bytes (h ++ [s.bytes h, r.bytes h]) = d.bytes h := bytes_grow hv.1 _
    have ep : p.bytes (h ++ [s.bytes h, r.bytes h]) = p.bytes h := bytes_grow hv.2.2.2 _
    have hr := copy_val (n := 20) ((bytes_length hv.2.2.1).trans hl.2)
    have hs := copy_val (n := 20) ((bytes_length hv.2.1).trans hl.1)
    refine ⟨⟨?_, ?_⟩, ⟨?_, ?_⟩, ⟨?_, ?_⟩, ?_⟩
    · simp only [asTxContent, er, e1, ContentMem.load, TxMem.load, Tx.content]
      rw [e4, e5, ed]
    · simp only [asTxContent, er, e1]; exact hg _
    · simp only [asExtendedTx, er, e1, TxMem.load, Tx.asExtended]
      rw [e4, e5, ed, ep]
    · simp only [asExtendedTx, er, e1]; exact hg _
    · simp only [getSender, TxMem.load, Tx.getSender, hs]
    · rfl
    · simp only [getRecipient, TxMem.load, Tx.getRecipient, hr]

/-- C127, what is the caller's own: the addresses in the results of `AsTxContent` and `AsExtendedTx`, and the address that
`GetSender` of a basic transaction points to. Writing to them does not change the transaction. -/
theorem C127_own_partial (H : Bytes → Hash32) {h : Heap} {t : TxMem} (ht : t.Ok h) (i : Nat) (b : UInt8) :
    (t.load (write (asTxContent H h t).1 (asTxContent H h t).2.sender i b) = t.load h ∧
      t.load (write (asTxContent H h t).1 (asTxContent H h t).2.recipient i b) = t.load h) ∧
    (∀ d s st r rt v f e n fl p, (asExtendedTx H h t).2 = .extended d s st r rt v f e n fl p →
      t.load (write (asExtendedTx H h t).1 s i b) = t.load h ∧ t.load (write (asExtendedTx H h t).1 r i b) = t.load h) ∧
    (∀ k r s v f e n, t = .basic k r s v f e n →
      t.load (write (getSender H h t).1 (getSender H h t).2.1 i b) = t.load h) := by
  have hg := load_grow ht
  cases t with
  | basic k r s v f e n =>
    obtain ⟨e1, e2, e3, -, -⟩ := two_new h (addressBytes H h k) (r.bytes (new h (addressBytes H h k)).1)
    refine ⟨⟨?_, ?_⟩, ?_, ?_⟩
    · rw [load_write (fresh_ne ht (by simp only [asTxContent]; omega))]
      simp only [asTxContent, e1]; exact hg _
    · rw [load_write (fresh_ne ht (by simp only [asTxContent]; omega))]
      simp only [asTxContent, e1]; exact hg _
    · intro d s' st r' rt v' f' e' n' fl p he
      simp only [asExtendedTx, TxMem.extended.injEq] at he
      constructor
      · rw [load_write (fresh_ne ht (by rw [← he.2.1]; omega))]
        simp only [asExtendedTx, e1]; exact hg _
      · rw [load_write (fresh_ne ht (by rw [← he.2.2.2.1]; omega))]
        simp only [asExtendedTx, e1]; exact hg _
    · intro _ _ _ _ _ _ _ _
      rw [load_write (fresh_ne ht (by simp only [getSender]; omega))]
      exact hg _
  | extended d s st r rt v f e n fl p =>
    obtain ⟨e1, e2, e3, -, -⟩ := two_new h (s.bytes h) (r.bytes (new h (s.bytes h)).1)
    refine ⟨⟨?_, ?_⟩, ?_, ?_⟩
    · rw [load_write (fresh_ne ht (by simp only [asTxContent]; omega))]
      simp only [asTxContent, e1]; exact hg _
    · rw [load_write (fresh_ne ht (by simp only [asTxContent]; omega))]
      simp only [asTxContent, e1]; exact hg _
    · intro d s' st r' rt v' f' e' n' fl p he
      simp only [asExtendedTx, TxMem.extended.injEq] at he
      constructor
      · rw [load_write (fresh_ne ht (by rw [← he.2.1]; omega))]
        simp only [asExtendedTx, e1]; exact hg _
      · rw [load_write (fresh_ne ht (by rw [← he.2.2.2.1]; omega))]
        simp only [asExtendedTx, e1]; exact hg _
    · intro _ _ _ _ _ _ _ he
      cases he

/-- C127 is false of everything else. The pointer `GetRecipient` returns, the one `GetSender` of an extended transaction
returns, the Data of `AsTxContent` and of `AsExtendedTx` and the Proof of `AsExtendedTx` are the transaction's own memory: a
write to byte `i` there changes byte `i` of the transaction, and nothing else in it. -/
theorem C127_shared_violated (H : Bytes → Hash32) {h : Heap} {t : TxMem} (ht : t.Ok h) (i : Nat) (b : UInt8) :
    (i < 20 → (match t.load h, t.load (write h (getRecipient t).1 i b) with
      | .basic x, .basic y => y = { x with recipient := ⟨x.recipient.val.set i b, by rw [List.length_set]; exact x.recipient.property⟩ }
      | .extended x, .extended y =>
        y = { x with recipient := ⟨x.recipient.val.set i b, by rw [List.length_set]; exact x.recipient.property⟩ }
      | _, _ => False)) ∧
    (∀ x, t.load h = .extended x → i < 20 → t.load (write (getSender H h t).1 (getSender H h t).2.1 i b) =
      .extended { x with sender := ⟨x.sender.val.set i b, by rw [List.length_set]; exact x.sender.property⟩ }) ∧
    (∀ x, t.load h = .extended x → i < x.data.length →
      t.load (write (asTxContent H h t).1 (asTxContent H h t).2.data i b) = .extended { x with data := x.data.set i b }) ∧
    (∀ d s st r rt v f e n fl p, (asExtendedTx H h t).2 = .extended d s st r rt v f e n fl p → i < p.len →
      (∀ x, t.load h = .extended x →
        t.load (write (asExtendedTx H h t).1 p i b) = .extended { x with proof := x.proof.set i b }) ∧
      (∀ x, t.load h = .basic x → t.load (write (asExtendedTx H h t).1 p i b) =
        .basic { x with signature := ⟨x.signature.val.set i b, by rw [List.length_set]; exact x.signature.property⟩ })) := by
  have hv := ht.1
  have hd := ht.2.1
  have hl := ht.2.2
  have arr : ∀ {n : Nat} {q : Ref} {h' : Heap}, q.Valid h' → q.len = n → i < n →
      BArr.copy n (q.bytes (write h' q i b)) = ⟨(BArr.copy n (q.bytes h')).val.set i b, by
        rw [List.length_set]; exact (BArr.copy n (q.bytes h')).property⟩ := by
    intro n q h' hq hn hi
    have h1 := bytes_length hq
    apply Subtype.ext
    rw [bytes_write_same hq (by omega), copy_val (by rw [List.length_set]; omega)]
    simp only []
    rw [copy_val (by omega)]
  cases t with
  | basic k r s v f e n =>
    simp only [TxMem.refs, List.mem_cons, List.not_mem_nil, or_false, forall_eq_or_imp, forall_eq] at hv
    simp only [TxMem.refs, List.map_cons, List.map_nil, List.nodup_cons, List.mem_cons, List.not_mem_nil, or_false, not_or,
      not_false_eq_true, List.nodup_nil, and_true] at hd
    simp only [] at hl
    obtain ⟨⟨n1, n2⟩, n3⟩ := hd
    refine ⟨fun hi => ?_, ?_, ?_, ?_⟩
    · simp only [TxMem.load, getRecipient]
      rw [arr hv.2.1 hl.2.1 hi, bytes_write_ne i b n1, bytes_write_ne i b (Ne.symm n3)]
    · intro x hx; cases hx
    · intro x hx; cases hx
    · intro d s' st r' rt v' f' e' n' fl p he hi
      simp only [asExtendedTx, TxMem.extended.injEq] at he
      obtain ⟨-, -, -, -, -, -, -, -, -, -, rfl⟩ := he
      refine ⟨fun x hx => (by cases hx), fun x hx => ?_⟩
      obtain ⟨e1, -⟩ := two_new h (addressBytes H h k) (r.bytes (new h (addressBytes H h k)).1)
      simp only [asExtendedTx, e1]
      simp only [TxMem.load, Tx.basic.injEq] at hx ⊢
      subst hx
      have g := fun (q : Ref) (hq : q.Valid h) => bytes_grow hq [addressBytes H h k, r.bytes (new h (addressBytes H h k)).1]
      rw [arr (valid_grow hv.2.2 _) hl.2.2 (by omega), bytes_write_ne i b n2, bytes_write_ne i b n3]
      simp only [g _ hv.1, g _ hv.2.1, g _ hv.2.2]
  | extended d s st r rt v f e n fl p =>
    simp only [TxMem.refs, List.mem_cons, List.not_mem_nil, or_false, forall_eq_or_imp, forall_eq] at hv
    simp only [TxMem.refs, List.map_cons, List.map_nil, List.nodup_cons, List.mem_cons, List.not_mem_nil, or_false, not_or,
      not_false_eq_true, List.nodup_nil, and_true] at hd
    simp only [] at hl
    obtain ⟨⟨n1, n2, n3⟩, ⟨n4, n5⟩, n6⟩ := hd
    refine ⟨fun hi => ?_, ?_, ?_, ?_⟩
    · simp only [TxMem.load, getRecipient]
      rw [arr hv.2.2.1 hl.2 hi, bytes_write_ne i b n2, bytes_write_ne i b n4, bytes_write_ne i b (Ne.symm n6)]
    · intro x hx hi
      simp only [TxMem.load, getSender, Tx.extended.injEq] at hx ⊢
      subst hx
      rw [arr hv.2.1 hl.1 hi, bytes_write_ne i b n1, bytes_write_ne i b (Ne.symm n4), bytes_write_ne i b (Ne.symm n5)]
    · intro x hx hi
      obtain ⟨e1, -⟩ := two_new h (s.bytes h) (r.bytes (new h (s.bytes h)).1)
      simp only [asTxContent, e1]
      simp only [TxMem.load, Tx.extended.injEq] at hx ⊢
      subst hx
      simp only [bytes_length hv.1] at hi
      have g := fun (q : Ref) (hq : q.Valid h) => bytes_grow hq [s.bytes h, r.bytes (new h (s.bytes h)).1]
      rw [bytes_write_same (valid_grow hv.1 _) hi, bytes_write_ne i b (Ne.symm n1), bytes_write_ne i b (Ne.symm n2),
        bytes_write_ne i b (Ne.symm n3)]
      simp only [g _ hv.1, g _ hv.2.1, g _ hv.2.2.1, g _ hv.2.2.2]
    · intro d' s' st' r' rt' v' f' e' n' fl' p' he hi
      simp only [asExtendedTx, TxMem.extended.injEq] at he
      obtain ⟨-, -, -, -, -, -, -, -, -, -, rfl⟩ := he
      refine ⟨fun x hx => ?_, fun x hx => (by cases hx)⟩
      obtain ⟨e1, -⟩ := two_new h (s.bytes h) (r.bytes (new h (s.bytes h)).1)
      simp only [asExtendedTx, e1]
      simp only [TxMem.load, Tx.extended.injEq] at hx ⊢
      subst hx
      have g := fun (q : Ref) (hq : q.Valid h) => bytes_grow hq [s.bytes h, r.bytes (new h (s.bytes h)).1]
      rw [bytes_write_same (valid_grow hv.2.2.2 _) hi, bytes_write_ne i b n3, bytes_write_ne i b n5, bytes_write_ne i b n6]
      simp only [g _ hv.1, g _ hv.2.1, g _ hv.2.2.1, g _ hv.2.2.2]

/-- C127, a consequence. The extended form of a basic transaction does not keep its proof: signing the basic transaction again
(with another key assigned, or after a change) replaces the proof in the extended form that was made before. -/
theorem C127_signed_again_violated (H : Bytes → Hash32) {h : Heap} {t : TxMem} {x : BasicTx} (ht : t.Ok h)
    (hx : t.load h = .basic x) (sig : BArr 64) :
    (asExtendedTx H h t).2.load (asExtendedTx H h t).1 = .extended ((t.load h).asExtended H) ∧
    t.load (signBasicTx (asExtendedTx H h t).1 sig t) = .basic { x with signature := sig } ∧
    (asExtendedTx H h t).2.load (signBasicTx (asExtendedTx H h t).1 sig t) =
      .extended { (t.load h).asExtended H with proof := sig.val } := by
  refine ⟨(C127_values_partial H ht).2.1.1, ?_⟩
  have hv := ht.1
  have hd := ht.2.1
  have hl := ht.2.2
  have h0 := (C127_values_partial H ht).2.1.1
  cases t with
  | extended => cases hx
  | basic k r s v f e n =>
    simp only [TxMem.refs, List.mem_cons, List.not_mem_nil, or_false, forall_eq_or_imp, forall_eq] at hv
    simp only [TxMem.refs, List.map_cons, List.map_nil, List.nodup_cons, List.mem_cons, List.not_mem_nil, or_false, not_or,
      not_false_eq_true, List.nodup_nil, and_true] at hd
    simp only [] at hl
    obtain ⟨⟨n1, n2⟩, n3⟩ := hd
    obtain ⟨e1, e2, e3, -⟩ := two_new h (addressBytes H h k) (r.bytes (new h (addressBytes H h k)).1)
    have g := fun (q : Ref) (hq : q.Valid h) => bytes_grow hq [addressBytes H h k, r.bytes (new h (addressBytes H h k)).1]
    have hs : sig.val.length = s.len := sig.property.trans hl.2.2.symm
    have hlt := hv.2.2.1
    constructor
    · simp only [asExtendedTx, signBasicTx, e1]
      simp only [TxMem.load, Tx.basic.injEq] at hx ⊢
      subst hx
      rw [bytes_overwrite_same (valid_grow hv.2.2 _) hs, bytes_overwrite_ne _ n2, bytes_overwrite_ne _ n3, copy_self]
      simp only [g _ hv.1, g _ hv.2.1]
    · simp only [asExtendedTx, signBasicTx, e1, TxMem.load, Tx.asExtended, Tx.extended.injEq, ExtendedTx.mk.injEq] at h0 ⊢
      rw [bytes_overwrite_same (valid_grow hv.2.2 _) hs,
        bytes_overwrite_ne (q := (new h (addressBytes H h k)).2) _ (by rw [e2]; omega),
        bytes_overwrite_ne (q := (new (new h (addressBytes H h k)).1 (r.bytes (new h (addressBytes H h k)).1)).2) _
          (by rw [e3]; omega), h0.2.1, h0.2.2.2.1]
      simp [Ref.nil, Ref.bytes]

/-- Transactions with memory exist: a basic one, and an extended one with data and a proof. -/
example : (TxMem.basic ⟨0, 0, 32⟩ ⟨1, 0, 20⟩ ⟨2, 0, 64⟩ 5 1 1 42).Ok
    [List.replicate 32 1, List.replicate 20 2, List.replicate 64 3] := by
  refine ⟨?_, by decide, rfl, rfl, rfl⟩
  simp [TxMem.refs, Ref.Valid]

example : (TxMem.extended ⟨0, 3, 4⟩ ⟨1, 0, 20⟩ 0 ⟨2, 0, 20⟩ 0 5 1 1 42 0 ⟨3, 0, 7⟩).Ok
    [List.replicate 9 1, List.replicate 20 2, List.replicate 20 3, List.replicate 7 4] := by
  refine ⟨?_, by decide, rfl, rfl⟩
  simp [TxMem.refs, Ref.Valid]

end Nimiq.Wire.Views
