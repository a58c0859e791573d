import Verif.Accounts.Local
import Verif.Accounts.NoPanic
import Verif.Tree.Cost
/-!
# How many hashes a block costs (C131)

All hashing of `Push` — the tree's nodes, the addresses of public keys, the Merkle paths in signature proofs — counted by the
strings whose hash the result depends on: a list of strings such that any other hash function that agrees on it leads to the
same outcome and the same final state.
-/
namespace Nimiq.Accounts
open Beserial Wire Spec

variable {H : Bytes → Hash32} {α β γ : Type} {k j : Nat}

/-- What `f` computes is determined by the hashes of `k` strings. -/
def Asks (H : Bytes → Hash32) (k : Nat) (f : (Bytes → Hash32) → α) : Prop :=
  ∃ S : List Bytes, S.length ≤ k ∧ ∀ H' : Bytes → Hash32, (∀ x ∈ S, H' x = H x) → f H' = f H

theorem Asks.mono {f : (Bytes → Hash32) → α} (h : Asks H k f) (hk : k ≤ j) : Asks H j f := by
  obtain ⟨S, h1, h2⟩ := h
  exact ⟨S, by omega, h2⟩

theorem Asks.const (c : α) : Asks H k fun _ => c := ⟨[], by simp, fun _ _ => rfl⟩

theorem Asks.one (x : Bytes) : Asks H 1 fun H' => H' x := ⟨[x], by simp, fun H' h => h x (by simp)⟩

/-- First `g`, then something that depends on its result. -/
theorem Asks.arg {g : (Bytes → Hash32) → γ} {f : (Bytes → Hash32) → γ → α} (hg : Asks H k g)
    (hf : Asks H j fun H' => f H' (g H)) : Asks H (k + j) fun H' => f H' (g H') := by
  obtain ⟨S, s1, s2⟩ := hg
  obtain ⟨T, t1, t2⟩ := hf
  refine ⟨S ++ T, by rw [List.length_append]; omega, fun H' h => ?_⟩
  show f H' (g H') = f H (g H)
  rw [s2 H' fun x hx => h x (by simp [hx])]
  exact t2 H' fun x hx => h x (by simp [hx])

theorem Asks.map {g : (Bytes → Hash32) → γ} (f : γ → α) (hg : Asks H k g) : Asks H k fun H' => f (g H') :=
  Asks.arg (j := 0) (f := fun _ c => f c) hg (.const _)

theorem Asks.ite {c : Prop} [Decidable c] {f g : (Bytes → Hash32) → α} (hf : Asks H k f) (hg : Asks H k g) :
    Asks H k fun H' => if c then f H' else g H' := by
  by_cases hc : c
  · simpa only [if_pos hc] using hf
  · simpa only [if_neg hc] using hg

theorem Asks.bind {f : (Bytes → Hash32) → Out α} {g : (Bytes → Hash32) → α → Out β} (hf : Asks H k f)
    (hg : ∀ a, f H = .ok a → Asks H j fun H' => g H' a) : Asks H (k + j) fun H' => f H' >>= g H' := by
  refine Asks.arg (f := fun H' o => o >>= g H') hf ?_
  cases h : f H with
  | ok a => exact hg a h
  | err e => exact .const _
  | panic => exact .const _

/-! ## Signature proofs and debits -/

theorem asks_loop (br : BitSet) : ∀ (hs : List Hash32) (i : Nat) (root : Hash32),
    Asks H hs.length fun H' => computeRootLoop H' br i root hs := by
  intro hs
  induction hs with
  | nil => intro i root; exact .const _
  | cons h hs ih =>
    intro i root
    simp only [computeRootLoop, List.length_cons]
    rcases br.bit (UInt8.ofNat i) with b | e | _
    · cases b
      · exact (Asks.arg (f := fun H' r => computeRootLoop H' br (i + 1) r hs) (Asks.one (root.val ++ h.val)) (ih _ _)).mono (by omega)
      · exact (Asks.arg (f := fun H' r => computeRootLoop H' br (i + 1) r hs) (Asks.one (h.val ++ root.val)) (ih _ _)).mono (by omega)
    · exact .const _
    · exact .const _

theorem asks_signer (s : SignatureProof) (hw : WfProof s) : Asks H 256 fun H' => s.signerAddress H' := by
  have h1 : Asks H (1 + s.merklePath.hashes.length) fun H' => s.merklePath.computeRoot H' s.publicKey.val :=
    Asks.arg (f := fun H' r => computeRootLoop H' s.merklePath.branches 0 r s.merklePath.hashes) (Asks.one _) (asks_loop _ _ _ _)
  have h2 := s.merklePath.branches.len.toNat_lt
  have h3 := hw.2
  unfold SignatureProof.signerAddress
  exact Asks.map (k := 256) (fun o : Out Hash32 => (match o with
    | .ok root => .ok (BArr.copy 20 root.val)
    | .err e => .err e
    | .panic => .panic : Out Addr)) (h1.mono (by omega))

/-- `E` with another hash function. -/
def withHash (E : Env) (H : Bytes → Hash32) : Env := { E with H := H }

theorem asks_outgoing (E : Env) (acc : Account) (tx : Tx) (height : UInt32) :
    Asks H 512 fun H' => applyOutgoing (withHash E H') acc tx height := by
  cases acc with
  | basic a => exact .const _
  | vesting c =>
    show Asks H 512 fun H' => vestingOutgoing (withHash E H') c tx height
    unfold vestingOutgoing
    have hu : ∀ H', amountUnlocked (withHash E H') c height = amountUnlocked E c height := fun _ => rfl
    simp only [hu]
    refine Asks.mono (k := 0 + 512) (Asks.bind (.const _) fun t _ => .ite (.const _) ?_) (by omega)
    refine Asks.mono (Asks.bind (k := 0) (j := 256 + 0) (.const _) fun v hv => ?_) (by omega)
    exact Asks.bind (asks_signer _ ((sigProof_full _ _ _).mp hv).1) fun sg _ => .const _
  | htlc c =>
    show Asks H 512 fun H' => htlcOutgoing (withHash E H') c tx height
    unfold htlcOutgoing
    refine Asks.mono (k := 0 + 512) (Asks.bind (.const _) fun t _ => .ite (.const _) ?_) (by omega)
    cases t.proof with
    | nil => exact .const _
    | cons ty proof =>
      refine .ite (.ite (.const _) ?_) (.ite ?_ (.ite (.ite (.const _) ?_) (.const _)))
      · refine Asks.mono (Asks.bind (k := 0) (j := 256 + 0) (.const _) fun v hv => .ite (.const _) ?_) (by omega)
        exact Asks.bind (asks_signer _ ((htlcRegular_full _ _).mp hv).1) fun sg _ => .const _
      · refine Asks.mono (Asks.bind (k := 0) (j := 256 + 256) (.const _) fun v hv => ?_) (by omega)
        obtain ⟨w1, w2, _⟩ := (htlcEarly_full _ _).mp hv
        refine Asks.bind (asks_signer _ w1) fun sg _ => .ite (.const _) ?_
        exact Asks.bind (j := 0) (asks_signer _ w2) fun sg _ => .const _
      · refine Asks.mono (Asks.bind (k := 0) (j := 256 + 0) (.const _) fun v hv => ?_) (by omega)
        exact Asks.bind (asks_signer _ ((htlcTimeout_full _ _).mp hv).1) fun sg _ => .const _

theorem asks_content (tx : Tx) : Asks H 1 fun H' => tx.content H' := by
  cases tx with
  | basic t =>
    exact Asks.map (fun h : Hash32 => (⟨[], BArr.copy 20 (h.val.take 20), 0, t.recipient, 0, t.value, t.fee, t.validityStartHeight,
      t.networkID, 0⟩ : TxContent)) (Asks.one t.senderPubKey.val)
  | extended t => exact .const _

theorem asks_sender (tx : Tx) : Asks H 1 fun H' => tx.getSender H' := by
  cases tx with
  | basic t => exact Asks.map (fun h : Hash32 => ((BArr.copy 20 (h.val.take 20) : Addr), (0 : UInt8))) (Asks.one t.senderPubKey.val)
  | extended t => exact .const _

/-! ## Calls on a node -/

/-- The call, on any node in good order, asks for at most `k` hashes and leaves the node in good order. -/
def Work (H : Bytes → Hash32) (k : Nat) (x : (Bytes → Hash32) → M Node α) : Prop :=
  ∀ n m, Rel H n m → (Asks H k fun H' => x H' n) ∧ ∃ m', Rel H (x H n).2 m'

theorem Work.mono {x : (Bytes → Hash32) → M Node α} (h : Work H k x) (hk : k ≤ j) : Work H j x :=
  fun n m hr => ⟨(h n m hr).1.mono hk, (h n m hr).2⟩

theorem Work.bind {x : (Bytes → Hash32) → M Node α} {f : (Bytes → Hash32) → α → M Node β} (hx : Work H k x)
    (hf : ∀ a, Work H j fun H' => f H' a) : Work H (k + j) fun H' => x H' >>= f H' := by
  intro n m hr
  obtain ⟨x1, m1, hm1⟩ := hx n m hr
  constructor
  · show Asks H (k + j) fun H' => (x H' >>= f H') n
    have e : (fun H' => (x H' >>= f H') n) = fun H' => (fun (r : Out α × Node) => (M.bind (fun _ => r) (f H')) n) (x H' n) := by
      funext H'; rfl
    rw [e]
    refine Asks.arg (f := fun H' (r : Out α × Node) => (M.bind (fun _ => r) (f H')) n) x1 ?_
    rcases h : x H n with ⟨o, n1⟩
    rw [h] at hm1
    cases o with
    | ok a => exact (hf a n1 m1 hm1).1
    | err e => exact .const _
    | panic => exact .const _
  · show ∃ m', Rel H ((x H >>= f H) n).2 m'
    rw [M.bind_eq]
    rcases h : x H n with ⟨o, n1⟩
    rw [h] at hm1
    cases o with
    | ok a => exact (hf a n1 m1 hm1).2
    | err e => exact ⟨m1, hm1⟩
    | panic => exact ⟨m1, hm1⟩

theorem Work.arg {g : (Bytes → Hash32) → γ} {x : (Bytes → Hash32) → γ → M Node α} (hg : Asks H k g)
    (hx : ∀ c, Work H j fun H' => x H' c) : Work H (k + j) fun H' => x H' (g H') :=
  fun n m hr => ⟨Asks.arg (f := fun H' c => x H' c n) hg (hx _ n m hr).1, (hx _ n m hr).2⟩

theorem Work.free {x : M Node α} (h : ∀ n, (x n).2 = n) : Work H k fun _ => x :=
  fun n m hr => ⟨.const _, m, by rw [h]; exact hr⟩

theorem Work.lift {f : (Bytes → Hash32) → Out α} (h : Asks H k f) : Work H k fun H' => M.lift (f H') :=
  fun n m hr => ⟨Asks.map (fun o => (o, n)) h, m, hr⟩

theorem Work.ite {c : Prop} [Decidable c] {x y : (Bytes → Hash32) → M Node α} (hx : Work H k x) (hy : Work H k y) :
    Work H k fun H' => if c then x H' else y H' := by
  by_cases hc : c
  · simpa only [if_pos hc] using hx
  · simpa only [if_neg hc] using hy

theorem Work.forTxs {f : (Bytes → Hash32) → Tx → M Node Unit} (h : ∀ tx, Work H k fun H' => f H' tx) :
    ∀ txs, Work H (k * txs.length) fun H' => forTxs txs (f H')
  | [] => Work.free fun _ => rfl
  | tx :: txs => (Work.bind (f := fun H' _ => Accounts.forTxs txs (f H')) (h tx) fun _ => Work.forTxs h txs).mono
      (by simp [Nat.mul_add]; omega)

theorem work_get (a : Addr) : Work H 0 fun H' => (nodeLedger H').getAccount a :=
  fun n m hr => ⟨.const _, m, by
    show Rel H (Node.getAccount a n).2 m
    rw [hr.getAccount a]
    exact hr⟩

theorem work_reward (h : UInt32) : Work H 0 fun H' => (nodeLedger H').blockReward h :=
  fun n m hr => ⟨.const _, _, ((simLedger H).reward h n m hr).2⟩

variable (hz : ∀ x, H x ≠ Tree.zeroHash)
include hz

theorem work_put (a : Addr) (x : Option Account) : Work H 42 fun H' => (nodeLedger H').putAccount a x := by
  intro n m hr
  refine ⟨?_, _, (hr.putAccount a x).2⟩
  have key : ∀ buf, Asks H 42 fun H' => Node.putEntry H' a buf n := by
    intro buf
    obtain ⟨b, l, w', e1, e2, _⟩ := Tree.putEntryL_cost hr.tree (fun x _ => hz x) a buf
    refine Asks.map (g := fun H' => Tree.putEntry H' a buf n.tree) (fun r => (match r with
      | none => (.panic, n)
      | some (_, tree) => (.ok (), { n with tree := tree }) : Out Unit × Node)) ⟨l, e2, fun H' hl => ?_⟩
    show Tree.putEntry H' a buf n.tree = Tree.putEntry H a buf n.tree
    rw [Tree.putEntryL_erase, Tree.putEntryL_erase, Tree.putEntryL_complete e1 hl, e1]
  cases x with
  | none => exact key []
  | some acc =>
    show Asks H 42 fun H' => Node.putAccount H' a (some acc) n
    unfold Node.putAccount
    by_cases hc : acc.type = 0 ∧ isEmpty acc = true
    · simp only [if_pos hc]; exact key []
    · simp only [if_neg hc]
      cases WrapAccount.enc (some acc) [] with
      | ok buf => exact key buf
      | err e => exact .const _
      | panic => exact .const _

theorem work_pushTx (a : Addr) (ty : UInt8) (tx : Tx) (h : UInt32) {op : (Bytes → Hash32) → AccountOp}
    (hop : ∀ acc, Asks H k fun H' => op H' acc tx h) :
    Work H (k + 42) fun H' => pushTx (nodeLedger H') a ty tx h (op H') := by
  refine (Work.bind (k := 0) (j := k + 42) (work_get a) fun acc => .ite (.free fun _ => rfl) ?_).mono (by omega)
  exact Work.bind (f := fun H' x => (nodeLedger H').putAccount a (some x)) (.lift (hop acc)) fun x => work_put hz a (some x)

theorem work_createContract (E : Env) (tx : Tx) (h : UInt32) :
    Work H 43 fun H' => createContract (withHash E H') (nodeLedger H') tx h := by
  refine Work.arg (j := 42) (g := fun H' => tx.content H') (asks_content tx)
    (x := fun H' (content : TxContent) => if content.flags &&& 0x01 = 0 then M.panic else
      (nodeLedger H').getAccount content.recipient >>= fun acc =>
        if content.recipientType = 0 then M.throw (.invalidForRecipient content.recipient)
        else if content.recipientType = 1 then
          M.lift (initVesting tx h (balance acc)) >>= fun newAcc => (nodeLedger H').putAccount content.recipient (some newAcc)
        else if content.recipientType = 2 then
          M.lift (initHTLC tx h (balance acc)) >>= fun newAcc => (nodeLedger H').putAccount content.recipient (some newAcc)
        else M.throw (.invalidForRecipient content.recipient)) fun c => ?_
  refine .ite (.free fun _ => rfl) ((Work.bind (k := 0) (j := 42) (work_get _) fun acc =>
    .ite (.free fun _ => rfl) (.ite ?_ (.ite ?_ (.free fun _ => rfl)))).mono (by omega))
  · exact (Work.bind (k := 0) (f := fun H' x => (nodeLedger H').putAccount c.recipient (some x)) (.lift (.const _))
      fun x => work_put hz _ _).mono (by omega)
  · exact (Work.bind (k := 0) (f := fun H' x => (nodeLedger H').putAccount c.recipient (some x)) (.lift (.const _))
      fun x => work_put hz _ _).mono (by omega)

theorem work_pruneLoop (E : Env) : ∀ (txs : List Tx) (pm : PruneMap),
    Work H (43 * txs.length) fun H' => pruneLoop (withHash E H') (nodeLedger H') txs pm
  | [], pm => Work.free fun _ => rfl
  | tx :: txs, pm => by
    refine Work.mono (Work.arg (j := 42 + 43 * txs.length) (g := fun H' => (tx.getSender H').1)
      (Asks.map (·.1) (asks_sender tx))
      (x := fun H' (senderAddr : Addr) => (nodeLedger H').getAccount senderAddr >>= fun sender =>
        if isEmpty sender = false ∨ sender.type = 0 then pruneLoop (withHash E H') (nodeLedger H') txs pm
        else match pm.get senderAddr with
          | none => M.throw (.pruneMissing senderAddr)
          | some prunedAcc =>
            if accountEq prunedAcc (some sender) = false then M.throw (.pruneAltered senderAddr)
            else (nodeLedger H').putAccount senderAddr none >>= fun _ =>
              pruneLoop (withHash E H') (nodeLedger H') txs (pm.del senderAddr)) fun a => ?_)
      (by simp [Nat.mul_add]; omega)
    refine (Work.bind (k := 0) (j := 42 + 43 * txs.length) (work_get a) fun acc =>
      .ite ((work_pruneLoop E txs pm).mono (by omega)) ?_).mono (by omega)
    cases pm.get a with
    | none => exact .free fun _ => rfl
    | some p =>
      exact .ite (.free fun _ => rfl) (Work.bind (f := fun H' _ => pruneLoop (withHash E H') (nodeLedger H') txs (pm.del a))
        (work_put hz a none) fun _ => work_pruneLoop E txs _)

theorem work_push (E : Env) (block : Block) (body : Body) (hb : block.body = some body) :
    Work H (685 * body.txs.length + 42) fun H' => Push (withHash E H') block := by
  unfold Push push
  simp only [hb]
  refine (Work.bind (k := 555 * body.txs.length) (j := 130 * body.txs.length + 42) ?_ fun _ => ?_).mono (by omega)
  · refine Work.forTxs (f := fun H' tx => pushTx (nodeLedger H') (tx.content H').sender (tx.content H').senderType tx block.height
      (applyOutgoing (withHash E H'))) (fun tx => ?_) _
    exact Work.arg (j := 554) (x := fun H' (c : TxContent) => pushTx (nodeLedger H') c.sender c.senderType tx block.height
      (applyOutgoing (withHash E H'))) (asks_content tx) fun c => work_pushTx (k := 512) hz _ _ _ _ fun acc => asks_outgoing E acc tx _
  refine (Work.bind (k := 43 * body.txs.length) (j := 87 * body.txs.length + 42) ?_ fun _ => ?_).mono (by omega)
  · refine Work.forTxs (f := fun H' tx => pushTx (nodeLedger H') (tx.content H').recipient
      (if (tx.content H').flags &&& 0x01 = 0 then (tx.content H').recipientType else 0xFF) tx block.height applyIncoming) (fun tx => ?_) _
    exact Work.arg (j := 42) (x := fun H' (c : TxContent) => pushTx (nodeLedger H') c.recipient
      (if c.flags &&& 0x01 = 0 then c.recipientType else 0xFF) tx block.height applyIncoming) (asks_content tx)
      fun c => (work_pushTx (k := 0) (op := fun _ => applyIncoming) hz _ _ _ _ fun acc => .const _).mono (by omega)
  refine (Work.bind (k := 44 * body.txs.length) (j := 43 * body.txs.length + 42) ?_ fun _ => ?_).mono (by omega)
  · refine Work.forTxs (f := fun H' tx => if (tx.content H').flags &&& 0x01 ≠ 0 then
      createContract (withHash E H') (nodeLedger H') tx block.height else pure ()) (fun tx => ?_) _
    exact Work.arg (j := 43) (x := fun H' (c : TxContent) => if c.flags &&& 0x01 ≠ 0 then
      createContract (withHash E H') (nodeLedger H') tx block.height else pure ()) (asks_content tx)
      fun c => .ite (work_createContract hz E tx _) (.free fun _ => rfl)
  refine (Work.bind (k := 43 * body.txs.length) (j := 42) ?_ fun _ => ?_).mono (by omega)
  · refine (Work.bind (j := 0) (work_pruneLoop hz E _ _) fun pm => ?_).mono (by omega)
    by_cases h : pm.map (·.1) ≠ []
    · simp only [dif_pos h]
      exact Work.free (x := M.throw (.pruneEarly (E.pick (pm.map (·.1)) h).val)) fun _ => rfl
    · simp only [dif_neg h]; exact .free fun _ => rfl
  · refine (Work.bind (k := 0) (j := 42) (work_reward _) fun r => ?_).mono (by omega)
    exact (work_pushTx (k := 0) (op := fun _ => applyIncoming) hz _ _ _ _ fun acc => .const _).mono (by omega)

omit hz in
/-- **C131**: the hashes of a push are bounded by the number of transactions alone — not by the number of accounts, nor by the
length of the data and proofs in the transactions: outcome and final state are determined by the hashes of at most
`685 * transactions + 42` strings. (555 for a debit: 512 of them for the two Merkle paths of an early HTLC resolution and 42 for
the tree; 43 for the credit; 44 for creating a contract; 43 for pruning; 42 for the reward.) The hypothesis: no string has the
all-zero hash, which the tree uses as its "not computed" mark. -/
theorem C131_push_hashes {E : Env} {n : Node} (hn : Reach E n) (hz : ∀ x, E.H x ≠ Tree.zeroHash) (block : Block) (body : Body)
    (hb : block.body = some body) : ∃ S : List Bytes, S.length ≤ 685 * body.txs.length + 42 ∧
      ∀ H' : Bytes → Hash32, (∀ x ∈ S, H' x = E.H x) → Push { E with H := H' } block n = Push E block n := by
  obtain ⟨m, hm⟩ := hn.rel
  exact (work_push hz E block body hb n m hm).1

/-- The block of `Witness.lean` under a hash function without zeros: four transactions of all kinds, accepted (C131). -/
example : ∃ (E : Env) (body : Body), (∀ x, E.H x ≠ Tree.zeroHash) ∧ Reach E (Witness.node E) ∧
    (Witness.block E).body = some body ∧ body.txs.length = 4 ∧ (Push E (Witness.block E) (Witness.node E)).1 = .ok () := by
  let E : Env := ⟨fun x => ⟨UInt8.ofNat (x.length % 255 + 1) :: List.replicate 31 0, by simp⟩,
    fun l hl => ⟨l.head hl, l.head_mem hl⟩, fun _ => 0⟩
  refine ⟨E, Witness.body E, fun x h => ?_, Witness.node_reach E, rfl, rfl, by rw [Witness.rich_ok E]⟩
  have := congrArg (fun b : Hash32 => b.val.headD 0) h
  simp only [E, Tree.zeroHash, BArr.zero, List.headD_cons] at this
  have h2 := congrArg UInt8.toNat this
  rw [UInt8.toNat_ofNat'] at h2
  have : x.length % 255 + 1 < 256 := by omega
  simp [List.replicate] at h2
  omega

end Nimiq.Accounts
